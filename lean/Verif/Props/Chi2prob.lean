import Verif.Model.ModelFit
import Verif.Spec.Stat
import Mathlib.MeasureTheory.Integral.Gamma
import Mathlib.MeasureTheory.Integral.IntegralEqImproper
import Mathlib.Analysis.SpecialFunctions.Gamma.Basic

/-!
# C126: laws of `chi2prob`
-/

set_option linter.unusedSectionVars false
namespace Npplus
open Npplus.Spec MeasureTheory Set Filter Topology

/-- the integrand of the incomplete gamma function -/
theorem gamma_integrable {a : ℝ} (ha : 0 < a) {x : ℝ} (hx : 0 ≤ x) : IntegrableOn (fun t : ℝ => t ^ (a - 1) * Real.exp (-t)) (Ioi x) := by
  have h := Real.GammaIntegral_convergent ha
  have : (fun t : ℝ => t ^ (a - 1) * Real.exp (-t)) = fun t => Real.exp (-t) * t ^ (a - 1) := funext fun t => mul_comm _ _
  rw [this]
  exact h.mono_set (Ioi_subset_Ioi hx)

theorem gammaQ_zero {a : ℝ} (ha : 0 < a) : gammaQ a 0 = 1 := by
  unfold gammaQ
  rw [Real.Gamma_eq_integral ha]
  have : (fun t : ℝ => t ^ (a - 1) * Real.exp (-t)) = fun t => Real.exp (-t) * t ^ (a - 1) := funext fun t => mul_comm _ _
  rw [this, ← Real.Gamma_eq_integral ha]
  exact div_self (Real.Gamma_pos_of_pos ha).ne'

theorem gammaQ_split {a : ℝ} (ha : 0 < a) {x y : ℝ} (hx : 0 ≤ x) (hy : 0 ≤ y) :
    gammaQ a x = (∫ t in x..y, t ^ (a - 1) * Real.exp (-t)) / Real.Gamma a + gammaQ a y := by
  unfold gammaQ
  rw [← add_div, intervalIntegral.integral_interval_add_Ioi (gamma_integrable ha hx) (gamma_integrable ha hy)]

theorem gammaQ_lt {a : ℝ} (ha : 0 < a) {x y : ℝ} (hx : 0 ≤ x) (hxy : x < y) : gammaQ a y < gammaQ a x := by
  rw [gammaQ_split ha hx (hx.trans hxy.le)]
  have : 0 < ∫ t in x..y, t ^ (a - 1) * Real.exp (-t) := by
    refine intervalIntegral.intervalIntegral_pos_of_pos_on ?_ (fun t ht => ?_) hxy
    · rw [intervalIntegrable_iff_integrableOn_Ioc_of_le hxy.le]
      exact (gamma_integrable ha hx).mono_set Ioc_subset_Ioi_self
    · exact mul_pos (Real.rpow_pos_of_pos (hx.trans_lt ht.1) _) (Real.exp_pos _)
  have := div_pos this (Real.Gamma_pos_of_pos ha)
  linarith

theorem gammaQ_tendsto {a : ℝ} (ha : 0 < a) : Tendsto (gammaQ a) atTop (𝓝 0) := by
  have h := intervalIntegral_tendsto_integral_Ioi 0 (gamma_integrable ha le_rfl) tendsto_id
  have h1 : Tendsto (fun y => gammaQ a 0 - (∫ t in (0:ℝ)..y, t ^ (a - 1) * Real.exp (-t)) / Real.Gamma a) atTop
      (𝓝 (gammaQ a 0 - (∫ t in Ioi 0, t ^ (a - 1) * Real.exp (-t)) / Real.Gamma a)) := (h.div_const _).const_sub _
  have e : gammaQ a 0 - (∫ t in Ioi 0, t ^ (a - 1) * Real.exp (-t)) / Real.Gamma a = 0 := sub_self _
  rw [e] at h1
  refine h1.congr' ?_
  filter_upwards [eventually_ge_atTop 0] with y hy
  rw [gammaQ_split ha le_rfl hy]
  ring

theorem gammaQ_pos {a : ℝ} (ha : 0 < a) {x : ℝ} (hx : 0 ≤ x) : 0 < gammaQ a x := by
  have h1 : 0 ≤ gammaQ a (x + 1) := by
    refine div_nonneg (setIntegral_nonneg measurableSet_Ioi fun t ht => ?_) (Real.Gamma_pos_of_pos ha).le
    have ht : x + 1 < t := ht
    exact mul_nonneg (Real.rpow_nonneg (by linarith) _) (Real.exp_pos _).le
  exact h1.trans_lt (gammaQ_lt ha hx (by linarith))

section
variable {P A V : Type} {m : ModelFit P A V} {gammaincc : ℝ → ℝ → ℝ}

/-- C126.  With `ndof > 0`: `chi2prob(c)` has the shape of `c`, is 1 where `c = 0`, lies in (0, 1] everywhere, and is
strictly decreasing in `c`. -/
theorem C126_chi2prob (hg : ∀ a x, 0 < a → 0 ≤ x → gammaincc a x = gammaQ a x) (hdof : 0 < m.ndof) (c : NdArr ℝ) :
    (m.chi2prob gammaincc (some c)).shape = c.shape ∧
    (∀ i, c.get i = 0 → (m.chi2prob gammaincc (some c)).get i = 1) ∧
    (∀ i, 0 ≤ c.get i → 0 < (m.chi2prob gammaincc (some c)).get i ∧ (m.chi2prob gammaincc (some c)).get i ≤ 1) ∧
    ∀ i j, 0 ≤ c.get i → c.get i < c.get j → (m.chi2prob gammaincc (some c)).get j < (m.chi2prob gammaincc (some c)).get i := by
  have hd : (0 : ℝ) < 1 / 2 * (m.ndof : ℝ) := by
    have : (0 : ℝ) < (m.ndof : ℝ) := by exact_mod_cast hdof
    positivity
  have hv : ∀ i, 0 ≤ c.get i → (m.chi2prob gammaincc (some c)).get i = gammaQ (1 / 2 * (m.ndof : ℝ)) (1 / 2 * (m.ndof : ℝ) * c.get i) :=
    fun i hi => hg _ _ hd (mul_nonneg hd.le hi)
  refine ⟨rfl, fun i hi => ?_, fun i hi => ?_, fun i j hi hij => ?_⟩
  · rw [hv i hi.ge, hi, mul_zero, gammaQ_zero hd]
  · rw [hv i hi]
    refine ⟨gammaQ_pos hd (mul_nonneg hd.le hi), ?_⟩
    rcases hi.eq_or_lt with h | h
    · rw [← h, mul_zero, gammaQ_zero hd]
    · exact (gammaQ_lt hd le_rfl (mul_pos hd h)).le.trans_eq (gammaQ_zero hd)
  · rw [hv i hi, hv j (hi.trans hij.le)]
    exact gammaQ_lt hd (mul_nonneg hd.le hi) (mul_lt_mul_of_pos_left hij hd)

/-- C126.  `chi2prob(c)` tends to 0 as `c` grows. -/
theorem C126_limit (hg : ∀ a x, 0 < a → 0 ≤ x → gammaincc a x = gammaQ a x) (hdof : 0 < m.ndof) :
    Tendsto (fun c : ℝ => (m.chi2prob gammaincc (some ⟨[], fun _ => c⟩)).get []) atTop (𝓝 0) := by
  have hd : (0 : ℝ) < 1 / 2 * (m.ndof : ℝ) := by
    have : (0 : ℝ) < (m.ndof : ℝ) := by exact_mod_cast hdof
    positivity
  have h := (gammaQ_tendsto hd).comp (tendsto_id.const_mul_atTop hd)
  refine h.congr' ?_
  filter_upwards [eventually_ge_atTop 0] with c hc
  exact (hg _ _ hd (mul_nonneg hd.le hc)).symm

/-- C126.  With two degrees of freedom `chi2prob(c)` is `exp(-c)`. -/
theorem C126_two (hg : ∀ a x, 0 < a → 0 ≤ x → gammaincc a x = gammaQ a x) (hdof : m.ndof = 2) (c : ℝ) (hc : 0 ≤ c) :
    (m.chi2prob gammaincc (some ⟨[], fun _ => c⟩)).get [] = Real.exp (-c) := by
  have e : (m.chi2prob gammaincc (some ⟨[], fun _ => c⟩)).get [] = gammaincc (1 / 2 * (m.ndof : ℝ)) (1 / 2 * (m.ndof : ℝ) * c) := rfl
  have e2 : (1 / 2 * (m.ndof : ℝ)) = 1 := by rw [hdof]; norm_num
  rw [e, e2, one_mul, hg 1 c one_pos hc]
  unfold gammaQ
  simp [integral_exp_Iic]

end

/-! ### Non-vacuity -/

/-- a fit with two degrees of freedom -/
def exTwoDof : ModelFit Unit Unit Unit := ModelFit.new (.plain fun _ _ => .ok ()) () [] 1 2

example : (exTwoDof.chi2prob gammaQ none).get [] = Real.exp (-1) :=
  C126_two (m := exTwoDof) (fun _ _ _ _ => rfl) rfl 1 zero_le_one

end Npplus
