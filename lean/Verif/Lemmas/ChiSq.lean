import Mathlib.Probability.Distributions.Gamma
import Mathlib.Probability.Distributions.Gaussian.Real
import Mathlib.Probability.Moments.ComplexMGF
import Mathlib.MeasureTheory.Measure.CharacteristicFunction.Basic

/-!
# The sum of squares of independent standard normal numbers

Its law is the gamma distribution with shape n/2 and rate 1/2 (chi-square with n degrees of freedom).
-/

set_option linter.unusedSectionVars false
namespace Npplus
namespace ChiSq
open MeasureTheory ProbabilityTheory Set Real

/-- moment generating function of a square -/
theorem mgf_sq (t : ℝ) : mgf (fun x => x ^ 2) (gaussianReal 0 1) t = √(1 / (1 - 2 * t)) := by
  rw [mgf, integral_gaussianReal_eq_integral_smul one_ne_zero]
  have : ∀ x : ℝ, gaussianPDFReal 0 1 x • Real.exp (t * x ^ 2) = (√(2 * π))⁻¹ * Real.exp (-(1 / 2 - t) * x ^ 2) := by
    intro x
    rw [gaussianPDFReal, smul_eq_mul, mul_assoc, ← Real.exp_add]
    simp only [NNReal.coe_one, mul_one, sub_zero]
    congr 2
    ring
  simp_rw [this]
  rw [integral_const_mul, integral_gaussian, ← Real.sqrt_inv, ← Real.sqrt_mul (by positivity)]
  congr 1
  rcases eq_or_ne (1 - 2 * t) 0 with h | h
  · have h' : 1 / 2 - t = 0 := by linarith
    rw [h, h']; simp
  · have h' : 1 / 2 - t ≠ 0 := fun h' => h (by linarith)
    have := Real.pi_ne_zero
    field_simp

/-- moment generating function of the gamma distribution -/
theorem mgf_gamma {a r : ℝ} (ha : 0 < a) (hr : 0 < r) (t : ℝ) :
    mgf id (gammaMeasure a r) t = if t < r then (r / (r - t)) ^ a else 0 := by
  have hG := Real.Gamma_pos_of_pos ha
  have e : ∀ x : ℝ, (gammaPDF a r x).toReal • Real.exp (t * id x) =
      (Ici 0).indicator (fun x => r ^ a / Real.Gamma a * (x ^ (a - 1) * Real.exp (-((r - t) * x)))) x := by
    intro x
    rw [gammaPDF, ENNReal.toReal_ofReal (gammaPDFReal_nonneg ha hr x), gammaPDFReal, smul_eq_mul, indicator]
    by_cases hx : 0 ≤ x
    · rw [if_pos hx, if_pos (by exact hx), mul_assoc, mul_assoc, ← Real.exp_add]
      congr 3
      simp only [id]; ring
    · rw [if_neg hx, if_neg (by exact hx), zero_mul]
  rw [mgf, gammaMeasure, integral_withDensity_eq_integral_toReal_smul (by unfold gammaPDF; exact (measurable_gammaPDFReal a r).ennreal_ofReal)
    (ae_of_all _ fun x => by rw [gammaPDF]; exact ENNReal.ofReal_lt_top)]
  simp_rw [e]
  rw [integral_indicator measurableSet_Ici, integral_Ici_eq_integral_Ioi, integral_const_mul]
  split_ifs with h
  · have h' : 0 < r - t := by linarith
    rw [integral_rpow_mul_exp_neg_mul_Ioi ha h', div_mul_eq_mul_div, mul_div_assoc, mul_div_assoc, div_self hG.ne', mul_one,
      ← Real.mul_rpow hr.le (by positivity), mul_one_div]
  · rw [integral_undef, mul_zero]
    intro hi
    apply not_integrableOn_Ioi_rpow (a - 1)
    refine Integrable.mono' hi (by fun_prop) ?_
    rw [ae_restrict_iff' measurableSet_Ioi]
    refine ae_of_all _ fun x hx => ?_
    have hx' : (0 : ℝ) < x := hx
    have hp : 0 < x ^ (a - 1) := by positivity
    rw [Real.norm_of_nonneg hp.le]
    have : 1 ≤ Real.exp (-((r - t) * x)) := Real.one_le_exp (by nlinarith)
    nlinarith

/-- two probability measures with the same moment generating function, finite around 0 -/
theorem ext_of_mgf {μ ν : Measure ℝ} [IsProbabilityMeasure μ] [IsProbabilityMeasure ν] (h : mgf id μ = mgf id ν)
    (h0 : 0 ∈ interior (integrableExpSet id μ)) : μ = ν := by
  apply Measure.ext_of_charFun
  ext t
  rw [← complexMGF_id_mul_I, ← complexMGF_id_mul_I]
  exact eqOn_complexMGF_of_mgf h (by simpa using h0)

variable {Ω ι : Type} [MeasurableSpace Ω] {P : Measure Ω} {X : ι → Ω → ℝ}

/-- the law of a sum of squares -/
theorem law (hm : ∀ i, Measurable (X i)) (hi : iIndepFun X P) (hl : ∀ i, P.map (X i) = gaussianReal 0 1) (S : Finset ι)
    (hS : 0 < S.card) : P.map (fun ω => ∑ i ∈ S, X i ω ^ 2) = gammaMeasure (S.card / 2) (1 / 2) := by
  have hP : IsProbabilityMeasure P := hi.isProbabilityMeasure
  have ha : (0 : ℝ) < (S.card : ℝ) / 2 := by positivity
  have hG := isProbabilityMeasure_gammaMeasure ha (r := 1 / 2) (by norm_num)
  have hms : Measurable fun ω => ∑ i ∈ S, X i ω ^ 2 := by fun_prop
  have : IsProbabilityMeasure (P.map fun ω => ∑ i ∈ S, X i ω ^ 2) := Measure.isProbabilityMeasure_map hms.aemeasurable
  have hmgf : mgf id (P.map fun ω => ∑ i ∈ S, X i ω ^ 2) = mgf id (gammaMeasure (S.card / 2) (1 / 2)) := by
    ext t
    rw [mgf_id_map hms.aemeasurable, mgf_gamma ha (by norm_num)]
    have e : (fun ω => ∑ i ∈ S, X i ω ^ 2) = ∑ i ∈ S, fun ω => X i ω ^ 2 := by ext ω; simp
    have hi2 : iIndepFun (fun i ω => X i ω ^ 2) P := hi.comp (fun _ x => x ^ 2) (by fun_prop)
    rw [e, hi2.mgf_sum (by fun_prop)]
    have : ∀ i ∈ S, mgf (fun ω => X i ω ^ 2) P t = √(1 / (1 - 2 * t)) := by
      intro i _
      rw [← mgf_sq, ← hl i, mgf_map (hm i).aemeasurable (by fun_prop)]
      rfl
    rw [Finset.prod_congr rfl this, Finset.prod_const]
    split_ifs with h
    · have h1 : 0 < 1 - 2 * t := by linarith
      rw [Real.sqrt_eq_rpow, ← Real.rpow_natCast, ← Real.rpow_mul (by positivity)]
      congr 1
      · have : 1 / 2 - t ≠ 0 := by intro h; linarith
        field_simp
      · ring
    · rw [Real.sqrt_eq_zero_of_nonpos, zero_pow hS.ne']
      exact div_nonpos_of_nonneg_of_nonpos zero_le_one (by linarith)
  refine (ext_of_mgf hmgf.symm ?_).symm
  rw [mem_interior_iff_mem_nhds]
  refine Filter.mem_of_superset (Iio_mem_nhds (show (0 : ℝ) < 1 / 2 by norm_num)) fun t ht => ?_
  have ht' : t < 1 / 2 := ht
  have hpos : mgf id (gammaMeasure (S.card / 2) (1 / 2)) t ≠ 0 := by
    rw [mgf_gamma ha (by norm_num), if_pos ht']
    have : 0 < 1 / 2 - t := by linarith
    positivity
  by_contra hn
  exact hpos (mgf_undef hn)

/-- the upper tail -/
theorem gamma_tail {a : ℝ} (ha : 0 < a) {x : ℝ} (hx : 0 ≤ x) :
    (gammaMeasure a (1 / 2)).real (Ioi x) = (∫ t in Ioi (x / 2), t ^ (a - 1) * Real.exp (-t)) / Real.Gamma a := by
  have hG := Real.Gamma_pos_of_pos ha
  have h1 : (gammaMeasure a (1 / 2)).real (Ioi x) = ∫ y in Ioi x, gammaPDFReal a (1 / 2) y := by
    rw [gammaMeasure, measureReal_def, withDensity_apply _ measurableSet_Ioi]
    refine (integral_eq_lintegral_of_nonneg_ae ?_ ?_).symm
    · exact ae_of_all _ fun b ↦ gammaPDFReal_nonneg ha (show (0 : ℝ) < 1 / 2 by norm_num) b
    · fun_prop
  have h2 : ∫ y in Ioi x, gammaPDFReal a (1 / 2) y =
      ∫ y in Ioi x, 1 / (2 * Real.Gamma a) * ((fun t => t ^ (a - 1) * Real.exp (-t)) (1 / 2 * y)) := by
    refine setIntegral_congr_fun measurableSet_Ioi fun y hy => ?_
    have hy' : 0 < y := lt_of_le_of_lt hx hy
    simp only [gammaPDFReal]
    rw [if_pos hy'.le, Real.mul_rpow (by norm_num) hy'.le, Real.rpow_sub_one (show (1 / 2 : ℝ) ≠ 0 by norm_num)]
    rw [show -(1 / 2 * y) = -(y / 2) by ring]
    field_simp
  have h3 := integral_comp_mul_left_Ioi (fun t : ℝ => t ^ (a - 1) * Real.exp (-t)) x (show (0 : ℝ) < 1 / 2 by norm_num)
  rw [h1, h2, integral_const_mul, h3]
  rw [show (1 : ℝ) / 2 * x = x / 2 by ring, smul_eq_mul]
  field_simp

end ChiSq
end Npplus
