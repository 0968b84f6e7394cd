import Verif.Lemmas.RandDet
import Mathlib.Analysis.SpecialFunctions.PolarCoord
import Mathlib.MeasureTheory.Integral.IntervalIntegral.Periodic
import Mathlib.MeasureTheory.Function.JacobianOneDim
import Mathlib.MeasureTheory.Measure.Lebesgue.EqHaar

/-!
# Polar coordinates
-/

set_option linter.unusedSectionVars false
namespace Npplus
open MeasureTheory ProbabilityTheory Npplus.Randomx Npplus.Spec
open scoped ENNReal Real

namespace Rand

/-! ### iterated integrals -/

theorem lint_succ (m : Measure ℝ) [SigmaFinite m] (n : ℕ) (g : (Fin (n + 1) → ℝ) → ℝ≥0∞) (hg : Measurable g) :
    ∫⁻ u, g u ∂(Measure.pi fun _ : Fin (n + 1) => m) = ∫⁻ a, ∫⁻ v, g (Matrix.vecCons a v) ∂(Measure.pi fun _ : Fin n => m) ∂m := by
  have h := (measurePreserving_piFinSuccAbove (fun _ : Fin (n + 1) => m) 0).symm
  rw [← h.lintegral_comp hg, lintegral_prod]
  · refine lintegral_congr fun a => lintegral_congr fun v => ?_
    congr 1
    show Fin.insertNth (α := fun _ => ℝ) 0 a v = _
    rw [Fin.insertNth_zero]
    rfl
  · exact (hg.comp h.measurable).aemeasurable

theorem lint_zero (m : Measure ℝ) [SigmaFinite m] (g : (Fin 0 → ℝ) → ℝ≥0∞) :
    ∫⁻ u, g u ∂(Measure.pi fun _ : Fin 0 => m) = g ![] := by
  rw [Measure.pi_of_empty _ ![]]
  exact lintegral_dirac _ _

theorem lint_one (m : Measure ℝ) [SigmaFinite m] (g : (Fin 1 → ℝ) → ℝ≥0∞) (hg : Measurable g) :
    ∫⁻ u, g u ∂(Measure.pi fun _ : Fin 1 => m) = ∫⁻ a, g ![a] ∂m := by
  rw [lint_succ m 0 g hg]
  simp only [lint_zero m]

theorem lint_two (m : Measure ℝ) [SigmaFinite m] (g : (Fin 2 → ℝ) → ℝ≥0∞) (hg : Measurable g) :
    ∫⁻ u, g u ∂(Measure.pi fun _ : Fin 2 => m) = ∫⁻ a, ∫⁻ b, g ![a, b] ∂m ∂m := by
  rw [lint_succ m 1 g hg]
  refine lintegral_congr fun a => ?_
  exact lint_one m (fun v => g (Matrix.vecCons a v)) (hg.comp (by fun_prop))

theorem lint_three (m : Measure ℝ) [SigmaFinite m] (g : (Fin 3 → ℝ) → ℝ≥0∞) (hg : Measurable g) :
    ∫⁻ u, g u ∂(Measure.pi fun _ : Fin 3 => m) = ∫⁻ a, ∫⁻ b, ∫⁻ c, g ![a, b, c] ∂m ∂m ∂m := by
  rw [lint_succ m 2 g hg]
  refine lintegral_congr fun a => ?_
  exact lint_two m (fun v => g (Matrix.vecCons a v)) (hg.comp (by fun_prop))

/-! ### angles -/

theorem lint_U (g : ℝ → ℝ≥0∞) : ∫⁻ t, g t ∂U = ∫⁻ t in Set.Ioc (0 : ℝ) 1, g t := by
  unfold U
  exact setLIntegral_congr Ico_ae_eq_Ioc

theorem lint_U' (g : ℝ → ℝ≥0∞) : ∫⁻ t, g t ∂U = ∫⁻ t in Set.Ioo (0 : ℝ) 1, g t := by
  rw [lint_U]
  exact setLIntegral_congr Ioo_ae_eq_Ioc.symm

theorem lint_periodic {T : ℝ} (hT : 0 < T) (g : ℝ → ℝ≥0∞) (hg : Function.Periodic g T) (a b : ℝ) :
    ∫⁻ t in Set.Ioc a (a + T), g t = ∫⁻ t in Set.Ioc b (b + T), g t := by
  refine (isAddFundamentalDomain_Ioc hT a).setLIntegral_eq (isAddFundamentalDomain_Ioc hT b) g ?_
  rintro ⟨x, hx⟩ t
  obtain ⟨n, rfl⟩ := AddSubgroup.mem_zmultiples_iff.1 hx
  show g (n • T + t) = g t
  rw [add_comm]
  exact (hg.zsmul n) t

theorem lint_image {s : Set ℝ} (hs : MeasurableSet s) {φ φ' : ℝ → ℝ} (h : ∀ t ∈ s, HasDerivAt φ (φ' t) t) (hi : Set.InjOn φ s)
    (g : ℝ → ℝ≥0∞) : ∫⁻ x in φ '' s, g x = ∫⁻ t in s, ENNReal.ofReal |φ' t| * g (φ t) :=
  lintegral_image_eq_lintegral_abs_deriv_mul hs (fun t ht => (h t ht).hasDerivWithinAt) hi g

theorem lint_shift (g : ℝ → ℝ≥0∞) (hg : Function.Periodic g 1) (a : ℝ) : ∫⁻ t, g (t + a) ∂U = ∫⁻ t, g t ∂U := by
  rw [lint_U, lint_U]
  have h1 := lint_image (s := Set.Ioc (0 : ℝ) 1) measurableSet_Ioc (φ := fun t => t + a) (φ' := fun _ => 1)
    (fun t _ => (hasDerivAt_id t).add_const a) (fun x _ y _ e => by simpa using e) g
  simp only [abs_one, ENNReal.ofReal_one, one_mul] at h1
  rw [← h1, Set.image_add_const_Ioc, zero_add, add_comm 1 a]
  have := lint_periodic one_pos g hg a 0
  rwa [zero_add] at this

theorem lint_angle (g : ℝ → ℝ≥0∞) (hg : Function.Periodic g (2 * π)) :
    ∫⁻ θ in Set.Ioo (-π) π, g θ = ENNReal.ofReal (2 * π) * ∫⁻ t, g (2 * π * t) ∂U := by
  have hpi : (0 : ℝ) < 2 * π := by positivity
  rw [setLIntegral_congr Ioo_ae_eq_Ioc, show π = -π + 2 * π by ring]
  rw [show -(-π + 2 * π) = -π by ring, lint_periodic hpi g hg (-π) 0, zero_add, show -π + 2 * π = π by ring, lint_U]
  have h1 := lint_image (s := Set.Ioc (0 : ℝ) 1) measurableSet_Ioc (φ := fun t => 2 * π * t) (φ' := fun _ => 2 * π)
    (fun t _ => by simpa using (hasDerivAt_id t).const_mul (2 * π)) (fun x _ y _ e => by simpa [hpi.ne', Real.pi_ne_zero] using e) g
  rw [show (fun t => 2 * π * t) '' Set.Ioc (0 : ℝ) 1 = Set.Ioc 0 (2 * π) by
    rw [Set.image_mul_left_Ioc hpi]; simp, abs_of_pos hpi, lintegral_const_mul' _ _ ENNReal.ofReal_ne_top] at h1
  exact h1

/-! ### polar coordinates -/

theorem lint_polar (f : ℝ → ℝ → ℝ≥0∞) (hf : Measurable (Function.uncurry f)) :
    ∫⁻ x, ∫⁻ y, f x y = ∫⁻ r in Set.Ioi (0 : ℝ), ENNReal.ofReal r * ∫⁻ θ in Set.Ioo (-π) π, f (r * Real.cos θ) (r * Real.sin θ) := by
  have h0 : ∫⁻ x, ∫⁻ y, f x y = ∫⁻ p : ℝ × ℝ, Function.uncurry f p := by
    rw [Measure.volume_eq_prod, lintegral_prod _ hf.aemeasurable]
    rfl
  rw [h0, ← lintegral_comp_polarCoord_symm, polarCoord_target, Measure.volume_eq_prod, ← Measure.prod_restrict,
    lintegral_prod]
  · refine lintegral_congr fun r => ?_
    rw [← lintegral_const_mul' _ _ ENNReal.ofReal_ne_top]
    rfl
  · refine Measurable.aemeasurable ?_
    refine (ENNReal.measurable_ofReal.comp measurable_fst).mul (hf.comp ?_)
    exact (measurable_fst.mul (Real.measurable_cos.comp measurable_snd)).prodMk (measurable_fst.mul (Real.measurable_sin.comp measurable_snd))

/-- polar coordinates with the random angle `2πt` -/
theorem lint_polar' (f : ℝ → ℝ → ℝ≥0∞) (hf : Measurable (Function.uncurry f)) :
    ∫⁻ x, ∫⁻ y, f x y = ENNReal.ofReal (2 * π) *
      ∫⁻ r in Set.Ioi (0 : ℝ), ENNReal.ofReal r * ∫⁻ t, f (r * Real.cos (2 * π * t)) (r * Real.sin (2 * π * t)) ∂U := by
  rw [lint_polar f hf, ← lintegral_const_mul' _ _ ENNReal.ofReal_ne_top]
  refine lintegral_congr fun r => ?_
  rw [lint_angle]
  · ring
  · intro θ
    simp only [Real.cos_add_two_pi, Real.sin_add_two_pi]

/-! ### the disc -/

/-- the point of `incircle` with few points -/
noncomputable def discPt (u : Fin 2 → ℝ) : Fin 2 → ℝ :=
  ![Real.sqrt (u 1) * Real.cos (u 0 * (2 * π)), Real.sqrt (u 1) * Real.sin (u 0 * (2 * π))]

theorem meas_discPt : Measurable discPt := by
  unfold discPt
  refine measurable_pi_lambda _ fun j => ?_
  fin_cases j
  · simp only [Fin.zero_eta, Matrix.cons_val_zero]; fun_prop
  · simp only [Fin.mk_one, Matrix.cons_val_one]; fun_prop

theorem lint_sqrt (h : ℝ → ℝ≥0∞) : ∫⁻ z, h (Real.sqrt z) ∂U = 2 * ∫⁻ r in Set.Ioo (0 : ℝ) 1, ENNReal.ofReal r * h r := by
  rw [lint_U']
  have hi : (fun r : ℝ => r ^ 2) '' Set.Ioo 0 1 = Set.Ioo 0 1 := by
    ext z
    constructor
    · rintro ⟨r, ⟨h0, h1⟩, rfl⟩; exact ⟨by positivity, by dsimp only; nlinarith⟩
    · rintro ⟨h0, h1⟩
      exact ⟨Real.sqrt z, ⟨Real.sqrt_pos.2 h0, (Real.sqrt_lt' one_pos).2 (by simpa using h1)⟩, Real.sq_sqrt h0.le⟩
  have h1 := lint_image (s := Set.Ioo (0 : ℝ) 1) measurableSet_Ioo (φ := fun r => r ^ 2) (φ' := fun r => 2 * r)
    (fun r _ => by simpa using hasDerivAt_pow 2 r) (fun x hx y hy e => by
      have : (x - y) * (x + y) = 0 := by simp only at e; linarith
      rcases mul_eq_zero.1 this with h | h <;> linarith [hx.1, hy.1]) (fun z => h (Real.sqrt z))
  rw [hi] at h1
  rw [h1, ← lintegral_const_mul' _ _ (by simp)]
  refine setLIntegral_congr_fun measurableSet_Ioo fun r hr => ?_
  show ENNReal.ofReal |2 * r| * h (Real.sqrt (r ^ 2)) = 2 * (ENNReal.ofReal r * h r)
  rw [Real.sqrt_sq hr.1.le, abs_of_pos (by linarith [hr.1]), ENNReal.ofReal_mul (by norm_num), mul_assoc]
  norm_num

theorem law_disc : (Um 2).map discPt = cond volume (ball 2) := by
  have key : ∀ g : (Fin 2 → ℝ) → ℝ≥0∞, Measurable g → ∫⁻ x in ball 2, g x = ENNReal.ofReal π * ∫⁻ x, g x ∂((Um 2).map discPt) := by
    intro g hg
    rw [lintegral_map hg meas_discPt, Um, lint_two U (fun u => g (discPt u)) (hg.comp meas_discPt), ← lintegral_indicator (measurableSet_ball 2)]
    have hgi := hg.indicator (measurableSet_ball 2)
    have hpair : Measurable fun p : ℝ × ℝ => ![p.1, p.2] := by
      refine measurable_pi_lambda _ fun j => ?_
      fin_cases j
      · exact measurable_fst
      · exact measurable_snd
    rw [volume_pi, lint_two volume _ hgi, lint_polar' (fun x y => (ball 2).indicator g ![x, y]) (hgi.comp hpair)]
    have hsw : ∫⁻ a, ∫⁻ b, g (discPt ![a, b]) ∂U ∂U = ∫⁻ b, ∫⁻ a, g (discPt ![a, b]) ∂U ∂U :=
      lintegral_lintegral_swap ((hg.comp (meas_discPt.comp hpair)).aemeasurable)
    rw [hsw]
    have e1 : ∫⁻ b, ∫⁻ a, g (discPt ![a, b]) ∂U ∂U =
        ∫⁻ b, (fun r => ∫⁻ t, g ![r * Real.cos (2 * π * t), r * Real.sin (2 * π * t)] ∂U) (Real.sqrt b) ∂U := by
      refine lintegral_congr fun b => lintegral_congr fun a => ?_
      simp only [discPt, Matrix.cons_val_zero, Matrix.cons_val_one, mul_comm a]
    rw [e1, lint_sqrt (fun r => ∫⁻ t, g ![r * Real.cos (2 * π * t), r * Real.sin (2 * π * t)] ∂U), ← mul_assoc, ENNReal.ofReal_mul (by norm_num : (0 : ℝ) ≤ 2), mul_comm (ENNReal.ofReal π)]
    congr 1
    · norm_num
    · rw [← lintegral_indicator measurableSet_Ioi, ← lintegral_indicator measurableSet_Ioo]
      refine lintegral_congr fun r => ?_
      by_cases h0 : 0 < r
      · have hball : ∀ t, ![r * Real.cos (2 * π * t), r * Real.sin (2 * π * t)] ∈ ball 2 ↔ r < 1 := by
          intro t
          simp only [ball, Set.mem_ofPred_eq, Fin.sum_univ_two, Matrix.cons_val_zero, Matrix.cons_val_one]
          rw [show (r * Real.cos (2 * π * t)) ^ 2 + (r * Real.sin (2 * π * t)) ^ 2 = r ^ 2 by
            linear_combination r ^ 2 * Real.cos_sq_add_sin_sq (2 * π * t)]
          constructor <;> intro h <;> nlinarith
        rw [Set.indicator_of_mem (show r ∈ Set.Ioi 0 from h0)]
        by_cases h1 : r < 1
        · rw [Set.indicator_of_mem (show r ∈ Set.Ioo 0 1 from ⟨h0, h1⟩)]
          congr 1
          refine lintegral_congr fun t => ?_
          rw [Set.indicator_of_mem ((hball t).2 h1)]
        · rw [Set.indicator_of_notMem (fun h : r ∈ Set.Ioo 0 1 => h1 h.2)]
          simp only [Set.indicator_of_notMem (mt (hball _).1 h1), lintegral_zero, mul_zero]
      · rw [Set.indicator_of_notMem (fun h : r ∈ Set.Ioi 0 => h0 h), Set.indicator_of_notMem (fun h : r ∈ Set.Ioo 0 1 => h0 h.1)]
  have hvol : volume (ball 2) = ENNReal.ofReal π := by
    have := key 1 measurable_one
    have hp : IsProbabilityMeasure ((Um 2).map discPt) := Measure.isProbabilityMeasure_map meas_discPt.aemeasurable
    simp only [Pi.one_apply, lintegral_one, measure_univ, mul_one, Measure.restrict_apply_univ] at this
    exact this
  ext A hA
  have h1 := key (A.indicator 1) (measurable_one.indicator hA)
  rw [lintegral_indicator_one hA, lintegral_indicator_one hA, Measure.restrict_apply hA] at h1
  rw [ProbabilityTheory.cond_apply (measurableSet_ball 2), hvol, Set.inter_comm, h1, ← mul_assoc,
    ENNReal.inv_mul_cancel (by simpa using Real.pi_pos) ENNReal.ofReal_ne_top, one_mul]

end Rand
end Npplus
