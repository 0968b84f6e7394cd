import Verif.Lemmas.FermiTail

/-!
# The two functions of the expansion for positive argument, and how to certify approximations of them

`dN y = √y ∫₀^y t^(-1/2) exp(t-y) dt`, `eN y = √y ∫_y^∞ t^(-1/2) exp(y-t) dt`.  Both solve a linear differential equation of first order; a function
with a small residual is close to them.
-/

set_option linter.unusedSectionVars false
namespace Npplus
open MeasureTheory Set

namespace FdTail

/-- see above -/
noncomputable def dN (y : ℝ) : ℝ := Real.sqrt y * DI (-1 / 2) 1 y

/-- see above -/
noncomputable def eN (y : ℝ) : ℝ := Real.sqrt y * EI (-1 / 2) 1 y

/-- `∫₀^y t^(-1/2) exp(c t) dt` -/
noncomputable def AI (c y : ℝ) : ℝ := ∫ t in (0 : ℝ)..y, t ^ (-1 / 2 : ℝ) * Real.exp (c * t)

theorem int_A (c a b : ℝ) : IntervalIntegrable (fun t : ℝ => t ^ (-1 / 2 : ℝ) * Real.exp (c * t)) volume a b :=
  (intervalIntegral.intervalIntegrable_rpow' (by norm_num)).mul_continuousOn (by fun_prop)

theorem hasDerivAt_A (c : ℝ) {y : ℝ} (hy : 0 < y) : HasDerivAt (AI c) (y ^ (-1 / 2 : ℝ) * Real.exp (c * y)) y := by
  apply intervalIntegral.integral_hasDerivAt_right (int_A c 0 y)
  · apply Measurable.stronglyMeasurable _ |>.stronglyMeasurableAtFilter
    fun_prop
  · exact (Real.continuousAt_rpow_const _ _ (Or.inl hy.ne')).mul (by fun_prop)

theorem continuousOn_A (c b : ℝ) : ContinuousOn (AI c) (Icc 0 b) := by
  have h := intervalIntegral.continuousOn_primitive_interval (a := 0) (b := b) (μ := volume)
    (f := fun t : ℝ => t ^ (-1 / 2 : ℝ) * Real.exp (c * t)) (by
      rcases le_total 0 b with h | h
      · rw [uIcc_of_le h]
        exact (intervalIntegrable_iff_integrableOn_Icc_of_le h).1 (int_A c 0 b)
      · rw [uIcc_of_ge h]
        exact (intervalIntegrable_iff_integrableOn_Icc_of_le h).1 (int_A c b 0))
  exact h.mono Icc_subset_uIcc

theorem A_nonneg (c : ℝ) {y : ℝ} (hy : 0 ≤ y) : 0 ≤ AI c y := by
  apply intervalIntegral.integral_nonneg hy
  intro t ht
  have := Real.rpow_nonneg ht.1 (-1 / 2); positivity

theorem rpow_half {y : ℝ} (hy : 0 < y) : y ^ (-1 / 2 : ℝ) = 1 / Real.sqrt y := by
  rw [show (-1 / 2 : ℝ) = -(1 / 2) by ring, Real.rpow_neg hy.le, ← Real.sqrt_eq_rpow]; simp

theorem dN_eq (y : ℝ) : dN y = Real.sqrt y * Real.exp (-y) * AI 1 y := by
  unfold dN DI AI
  rw [mul_assoc]
  congr 1
  rw [← intervalIntegral.integral_const_mul]
  apply intervalIntegral.integral_congr
  intro t _
  simp only
  rw [show 1 * (t - y) = -y + 1 * t by ring, Real.exp_add]; ring

theorem dN_nonneg {y : ℝ} (hy : 0 ≤ y) : 0 ≤ dN y := by
  rw [dN_eq]
  have := A_nonneg 1 hy; positivity

/-- `∫_y^∞ t^(-1/2) exp(-t) dt` -/
noncomputable def CI (y : ℝ) : ℝ := ∫ t in Ioi y, t ^ (-1 / 2 : ℝ) * Real.exp (-1 * t)

theorem int_C {y : ℝ} (hy : 0 ≤ y) : IntegrableOn (fun t : ℝ => t ^ (-1 / 2 : ℝ) * Real.exp (-1 * t)) (Ioi y) := by
  have h := integrableOn_rpow_mul_exp_neg_mul_rpow (p := 1) (s := -1 / 2) (b := 1) (by norm_num) one_pos one_pos
  refine (IntegrableOn.mono_set h (Ioi_subset_Ioi hy)).congr_fun (fun t _ => ?_) measurableSet_Ioi
  simp only [Real.rpow_one]

theorem C_eq {y : ℝ} (hy : 0 ≤ y) : CI y = CI 0 - AI (-1) y := by
  have h1 : IntegrableOn (fun t : ℝ => t ^ (-1 / 2 : ℝ) * Real.exp (-1 * t)) (Ioc 0 y) :=
    (intervalIntegrable_iff_integrableOn_Ioc_of_le hy).1 (int_A (-1) 0 y)
  have h := setIntegral_union (Ioc_disjoint_Ioi le_rfl) measurableSet_Ioi h1 (int_C hy)
  rw [Ioc_union_Ioi_eq_Ioi hy] at h
  unfold CI AI
  rw [intervalIntegral.integral_of_le hy, h]; ring

theorem hasDerivAt_C {y : ℝ} (hy : 0 < y) : HasDerivAt CI (-(y ^ (-1 / 2 : ℝ) * Real.exp (-1 * y))) y := by
  have h := (hasDerivAt_A (-1) hy).const_sub (CI 0)
  refine h.congr_of_eventuallyEq ?_
  filter_upwards [lt_mem_nhds hy] with t ht
  exact C_eq ht.le

theorem C_nonneg {y : ℝ} (hy : 0 ≤ y) : 0 ≤ CI y := by
  apply setIntegral_nonneg measurableSet_Ioi
  intro t ht
  have := Real.rpow_nonneg (hy.trans (le_of_lt ht)) (-1 / 2); positivity

theorem eN_eq (y : ℝ) : eN y = Real.sqrt y * Real.exp y * CI y := by
  unfold eN EI CI
  rw [mul_assoc]
  congr 1
  rw [← integral_const_mul]
  apply setIntegral_congr_fun measurableSet_Ioi
  intro t _
  simp only
  rw [show 1 * (y - t) = y + -1 * t by ring, Real.exp_add]; ring

theorem eN_nonneg {y : ℝ} (hy : 0 ≤ y) : 0 ≤ eN y := by
  rw [eN_eq]
  have := C_nonneg hy; positivity

/-- `t^(-1/2) ≤ y^(-1/2)` for `t ≥ y`. -/
theorem eN_le_one {y : ℝ} (hy : 0 < y) : eN y ≤ 1 := by
  have h : CI y ≤ ∫ t in Ioi y, y ^ (-1 / 2 : ℝ) * Real.exp (-1 * t) := by
    have hi : IntegrableOn (fun t : ℝ => Real.exp (-1 * t)) (Ioi y) := by
      simpa using integrableOn_exp_mul_Ioi (a := -1) (by norm_num) y
    refine setIntegral_mono_on (int_C hy.le) (hi.const_mul _) measurableSet_Ioi fun t ht => ?_
    refine mul_le_mul_of_nonneg_right ?_ (Real.exp_pos _).le
    exact Real.rpow_le_rpow_of_nonpos hy (le_of_lt ht) (by norm_num)
  rw [integral_const_mul, integral_exp_mul_Ioi (by norm_num)] at h
  rw [eN_eq]
  have hs := Real.sqrt_pos.2 hy
  have he := Real.exp_pos y
  calc Real.sqrt y * Real.exp y * CI y ≤ Real.sqrt y * Real.exp y * (y ^ (-1 / 2 : ℝ) * (-Real.exp (-1 * y) / -1)) :=
        mul_le_mul_of_nonneg_left h (by positivity)
    _ = Real.exp y * Real.exp (-1 * y) * (Real.sqrt y * y ^ (-1 / 2 : ℝ)) := by ring
    _ = 1 := by rw [rpow_half hy, ← Real.exp_add, mul_one_div_cancel hs.ne']; simp

/-- derivative of `exp(c y) y^(-1/2) g(1/y)` -/
theorem hasDerivAt_cand {c y g' : ℝ} {g : ℝ → ℝ} (hy : 0 < y) (hg : HasDerivAt g g' (1 / y)) :
    HasDerivAt (fun y => Real.exp (c * y) * y ^ (-1 / 2 : ℝ) * g (1 / y))
      (y ^ (-1 / 2 : ℝ) * Real.exp (c * y) * (c * g (1 / y) - 1 / 2 * (1 / y) * g (1 / y) - (1 / y) ^ 2 * g')) y := by
  have h1 : HasDerivAt (fun y : ℝ => Real.exp (c * y)) (Real.exp (c * y) * (c * 1)) y := ((hasDerivAt_id y).const_mul c).exp
  have h2 := Real.hasDerivAt_rpow_const (x := y) (p := (-1 / 2 : ℝ)) (Or.inl hy.ne')
  have h3 : HasDerivAt (fun y : ℝ => 1 / y) (-(1 / y) ^ 2) y := by
    have := hasDerivAt_inv hy.ne'
    simp only [one_div]
    exact this.congr_deriv (by rw [inv_pow])
  have h4 : HasDerivAt (fun y : ℝ => g (1 / y)) (g' * -(1 / y) ^ 2) y := HasDerivAt.comp y hg h3
  refine ((h1.mul h2).mul h4).congr_deriv ?_
  have e : y ^ (-1 / 2 - 1 : ℝ) = y ^ (-1 / 2 : ℝ) * (1 / y) := by
    rw [Real.rpow_sub hy, Real.rpow_one]; ring
  rw [e]; simp only [Pi.mul_apply]; ring

theorem dN_le_three {y : ℝ} (hy : 1 ≤ y) : dN y ≤ 3 := by
  have hder : ∀ z : ℝ, 1 ≤ z → HasDerivAt (fun y => Real.exp (1 * y) * y ^ (-1 / 2 : ℝ) * 3 - AI 1 y)
      (z ^ (-1 / 2 : ℝ) * Real.exp (1 * z) * (2 - 3 / 2 * (1 / z))) z := by
    intro z hz
    have hz0 : 0 < z := by linarith
    refine ((hasDerivAt_cand (c := 1) (g := fun _ => 3) (g' := 0) hz0 (hasDerivAt_const _ _)).sub (hasDerivAt_A 1 hz0)).congr_deriv ?_
    ring
  have hm := monotoneOn_of_deriv_nonneg (convex_Icc 1 y) (f := fun y => Real.exp (1 * y) * y ^ (-1 / 2 : ℝ) * 3 - AI 1 y)
    (fun z hz => (hder z hz.1).continuousAt.continuousWithinAt)
    (fun z hz => (hder z (interior_subset hz).1).differentiableAt.differentiableWithinAt) (by
      intro z hz
      have hz' := (interior_subset hz).1
      have hz0 : 0 < z := by linarith
      rw [(hder z hz').deriv]
      have hp := Real.rpow_pos_of_pos hz0 (-1 / 2)
      apply mul_nonneg (by positivity)
      have : 1 / z ≤ 1 := by rw [div_le_one hz0]; exact hz'
      linarith)
  have h1 := hm (left_mem_Icc.2 hy) (right_mem_Icc.2 hy) hy
  have hA : AI 1 1 ≤ Real.exp 1 * 2 := by
    have : AI 1 1 ≤ ∫ t in (0 : ℝ)..1, t ^ (-1 / 2 : ℝ) * Real.exp 1 := by
      apply intervalIntegral.integral_mono_on zero_le_one (int_A 1 0 1)
        ((intervalIntegral.intervalIntegrable_rpow' (by norm_num)).mul_const _)
      intro t ht
      refine mul_le_mul_of_nonneg_left (Real.exp_le_exp.2 (by linarith [ht.2])) (Real.rpow_nonneg ht.1 _)
    rw [intervalIntegral.integral_mul_const, integral_rpow (Or.inl (by norm_num))] at this
    norm_num at this ⊢
    linarith
  have hA0 : 0 ≤ Real.exp (1 * 1) * (1 : ℝ) ^ (-1 / 2 : ℝ) * 3 - AI 1 1 := by
    rw [Real.one_rpow, one_mul]
    have := Real.exp_pos 1
    linarith
  have h2 : 0 ≤ Real.exp (1 * y) * y ^ (-1 / 2 : ℝ) * 3 - AI 1 y := hA0.trans h1
  have hy0 : 0 < y := by linarith
  have hs := Real.sqrt_pos.2 hy0
  rw [rpow_half hy0] at h2
  rw [dN_eq]
  have h3 := mul_nonneg (mul_pos hs (Real.exp_pos (-y))).le h2
  have e : Real.exp (-y) * Real.exp (1 * y) = 1 := by rw [← Real.exp_add]; simp
  have : Real.sqrt y * Real.exp (-y) * (Real.exp (1 * y) * (1 / Real.sqrt y) * 3 - AI 1 y) =
      (Real.exp (-y) * Real.exp (1 * y)) * (Real.sqrt y * (1 / Real.sqrt y)) * 3 - Real.sqrt y * Real.exp (-y) * AI 1 y := by ring
  rw [this, e, mul_one_div_cancel hs.ne'] at h3
  linarith

/-- An approximation of `dN` on a panel, from its value at the left end and the residual. -/
theorem panelD {a b κ : ℝ} {g g' : ℝ → ℝ} (ha : 0 < a) (hg : ∀ w, HasDerivAt g (g' w) w)
    (hR : ∀ y, a ≤ y → y ≤ b → |-(1 / 2) * (1 / y) * g (1 / y) - (1 / y) ^ 2 * g' (1 / y) + g (1 / y) - 1| ≤ κ)
    (h0 : |g (1 / a) - dN a| ≤ κ * dN a) {y : ℝ} (h1 : a ≤ y) (h2 : y ≤ b) : |g (1 / y) - dN y| ≤ κ * dN y := by
  have hder : ∀ (r z : ℝ), a ≤ z → HasDerivAt (fun y => Real.exp (1 * y) * y ^ (-1 / 2 : ℝ) * g (1 / y) - r * AI 1 y)
      (z ^ (-1 / 2 : ℝ) * Real.exp (1 * z) *
        (-(1 / 2) * (1 / z) * g (1 / z) - (1 / z) ^ 2 * g' (1 / z) + g (1 / z) - 1 - (r - 1))) z := by
    intro r z hz
    have hz0 : 0 < z := lt_of_lt_of_le ha hz
    refine ((hasDerivAt_cand (c := 1) hz0 (hg _)).sub ((hasDerivAt_A 1 hz0).const_mul r)).congr_deriv ?_
    ring
  have hval : ∀ (r z : ℝ), a ≤ z → Real.sqrt z * Real.exp (-z) * (Real.exp (1 * z) * z ^ (-1 / 2 : ℝ) * g (1 / z) - r * AI 1 z) =
      g (1 / z) - r * dN z := by
    intro r z hz
    have hz0 : 0 < z := lt_of_lt_of_le ha hz
    have hs := Real.sqrt_pos.2 hz0
    rw [dN_eq, mul_sub, rpow_half hz0]
    have e : Real.exp (-z) * Real.exp (1 * z) = 1 := by rw [← Real.exp_add]; simp
    calc _ = (Real.exp (-z) * Real.exp (1 * z)) * (Real.sqrt z * (1 / Real.sqrt z)) * g (1 / z) -
          Real.sqrt z * Real.exp (-z) * (r * AI 1 z) := by ring
      _ = _ := by rw [e, mul_one_div_cancel hs.ne']; ring
  have hw : ∀ z : ℝ, a ≤ z → 0 < Real.sqrt z * Real.exp (-z) := fun z hz =>
    mul_pos (Real.sqrt_pos.2 (lt_of_lt_of_le ha hz)) (Real.exp_pos _)
  have hcont : ∀ r, ContinuousOn (fun y => Real.exp (1 * y) * y ^ (-1 / 2 : ℝ) * g (1 / y) - r * AI 1 y) (Icc a y) :=
    fun r z hz => (hder r z hz.1).continuousAt.continuousWithinAt
  have hdiff : ∀ r, DifferentiableOn ℝ (fun y => Real.exp (1 * y) * y ^ (-1 / 2 : ℝ) * g (1 / y) - r * AI 1 y) (interior (Icc a y)) :=
    fun r z hz => (hder r z (interior_subset hz).1).differentiableAt.differentiableWithinAt
  rw [abs_le] at h0 ⊢
  constructor
  · have hm := monotoneOn_of_deriv_nonneg (convex_Icc a y) (hcont (1 - κ)) (hdiff (1 - κ)) (by
      intro z hz
      have hz' := interior_subset hz
      rw [(hder (1 - κ) z hz'.1).deriv]
      have hz0 : 0 < z := lt_of_lt_of_le ha hz'.1
      have := (abs_le.1 (hR z hz'.1 (hz'.2.trans h2))).1
      have hp := Real.rpow_pos_of_pos hz0 (-1 / 2)
      apply mul_nonneg (by positivity); linarith)
    have := hm (left_mem_Icc.2 h1) (right_mem_Icc.2 h1) h1
    have ha0 : 0 ≤ Real.exp (1 * a) * a ^ (-1 / 2 : ℝ) * g (1 / a) - (1 - κ) * AI 1 a := by
      have := hval (1 - κ) a le_rfl
      have h : 0 ≤ g (1 / a) - (1 - κ) * dN a := by linarith
      rw [← this] at h
      exact nonneg_of_mul_nonneg_right h (hw a le_rfl)
    have hy0 := mul_nonneg (hw y h1).le (ha0.trans this)
    rw [hval _ _ h1] at hy0
    linarith
  · have hm := antitoneOn_of_deriv_nonpos (convex_Icc a y) (hcont (1 + κ)) (hdiff (1 + κ)) (by
      intro z hz
      have hz' := interior_subset hz
      rw [(hder (1 + κ) z hz'.1).deriv]
      have hz0 : 0 < z := lt_of_lt_of_le ha hz'.1
      have := (abs_le.1 (hR z hz'.1 (hz'.2.trans h2))).2
      have hp := Real.rpow_pos_of_pos hz0 (-1 / 2)
      apply mul_nonpos_of_nonneg_of_nonpos (by positivity); linarith)
    have := hm (left_mem_Icc.2 h1) (right_mem_Icc.2 h1) h1
    have ha0 : Real.exp (1 * a) * a ^ (-1 / 2 : ℝ) * g (1 / a) - (1 + κ) * AI 1 a ≤ 0 := by
      have := hval (1 + κ) a le_rfl
      have h : g (1 / a) - (1 + κ) * dN a ≤ 0 := by linarith
      rw [← this] at h
      exact nonpos_of_mul_nonpos_right h (hw a le_rfl)
    have hy0 := mul_nonpos_of_nonneg_of_nonpos (hw y h1).le (this.trans ha0)
    rw [hval _ _ h1] at hy0
    linarith

/-- The same on `(0, b]`, where the approximation is `√y q(y)`. -/
theorem startD {b κ : ℝ} {q q' : ℝ → ℝ} (hq : ∀ y, HasDerivAt q (q' y) y)
    (hR : ∀ y, 0 ≤ y → y ≤ b → |y * q' y + (1 / 2 + y) * q y - 1| ≤ κ) {y : ℝ} (h1 : 0 < y) (h2 : y ≤ b) :
    |y * q y - dN y| ≤ κ * dN y := by
  have hder : ∀ (r z : ℝ), 0 < z → HasDerivAt (fun y => Real.exp (1 * y) * Real.sqrt y * q y - r * AI 1 y)
      (z ^ (-1 / 2 : ℝ) * Real.exp (1 * z) * (z * q' z + (1 / 2 + z) * q z - 1 - (r - 1))) z := by
    intro r z hz0
    have hs := Real.sqrt_pos.2 hz0
    have k1 : HasDerivAt (fun y : ℝ => Real.exp (1 * y)) (Real.exp (1 * z) * (1 * 1)) z := ((hasDerivAt_id z).const_mul 1).exp
    have k2 := Real.hasDerivAt_sqrt hz0.ne'
    refine (((k1.mul k2).mul (hq z)).sub ((hasDerivAt_A 1 hz0).const_mul r)).congr_deriv ?_
    rw [rpow_half hz0]
    simp only [Pi.mul_apply]
    have hss : Real.sqrt z * Real.sqrt z = z := Real.mul_self_sqrt hz0.le
    have e : ∀ c : ℝ, 1 / Real.sqrt z * Real.exp (1 * z) * (z * c) = Real.exp (1 * z) * Real.sqrt z * c := by
      intro c
      calc _ = 1 / Real.sqrt z * Real.exp (1 * z) * ((Real.sqrt z * Real.sqrt z) * c) := by rw [hss]
        _ = _ := by field_simp
    have : 1 / Real.sqrt z * Real.exp (1 * z) * (z * q' z + (1 / 2 + z) * q z - 1 - (r - 1)) =
        1 / Real.sqrt z * Real.exp (1 * z) * (z * (q' z + q z)) + 1 / Real.sqrt z * Real.exp (1 * z) * (1 / 2 * q z - r) := by ring
    rw [this, e]
    field_simp
    ring
  have hval : ∀ (r z : ℝ), 0 < z → Real.sqrt z * Real.exp (-z) * (Real.exp (1 * z) * Real.sqrt z * q z - r * AI 1 z) =
      z * q z - r * dN z := by
    intro r z hz0
    rw [dN_eq, mul_sub]
    have e : Real.exp (-z) * Real.exp (1 * z) = 1 := by rw [← Real.exp_add]; simp
    calc _ = (Real.exp (-z) * Real.exp (1 * z)) * (Real.sqrt z * Real.sqrt z) * q z -
          Real.sqrt z * Real.exp (-z) * (r * AI 1 z) := by ring
      _ = _ := by rw [e, Real.mul_self_sqrt hz0.le]; ring
  have hw : 0 < Real.sqrt y * Real.exp (-y) := mul_pos (Real.sqrt_pos.2 h1) (Real.exp_pos _)
  have hqc : Continuous q := continuous_iff_continuousAt.2 fun z => (hq z).continuousAt
  have hcont : ∀ r, ContinuousOn (fun y => Real.exp (1 * y) * Real.sqrt y * q y - r * AI 1 y) (Icc 0 y) := fun r =>
    (Continuous.continuousOn (by fun_prop)).sub (continuousOn_const.mul (continuousOn_A 1 y))
  have hint : ∀ z ∈ interior (Icc 0 y), 0 < z ∧ z ≤ y := by
    intro z hz; rw [interior_Icc] at hz; exact ⟨hz.1, hz.2.le⟩
  have hdiff : ∀ r, DifferentiableOn ℝ (fun y => Real.exp (1 * y) * Real.sqrt y * q y - r * AI 1 y) (interior (Icc 0 y)) :=
    fun r z hz => (hder r z (hint z hz).1).differentiableAt.differentiableWithinAt
  have h00 : ∀ r, Real.exp (1 * (0 : ℝ)) * Real.sqrt 0 * q 0 - r * AI 1 0 = 0 := by
    intro r; simp [AI]
  rw [abs_le]
  constructor
  · have hm := monotoneOn_of_deriv_nonneg (convex_Icc 0 y) (hcont (1 - κ)) (hdiff (1 - κ)) (by
      intro z hz
      obtain ⟨hz0, hzy⟩ := hint z hz
      rw [(hder (1 - κ) z hz0).deriv]
      have := (abs_le.1 (hR z hz0.le (hzy.trans h2))).1
      have hp := Real.rpow_pos_of_pos hz0 (-1 / 2)
      apply mul_nonneg (by positivity); linarith)
    have := hm (left_mem_Icc.2 h1.le) (right_mem_Icc.2 h1.le) h1.le
    simp only at this
    rw [h00] at this
    have hy0 := mul_nonneg hw.le this
    rw [hval _ _ h1] at hy0
    linarith
  · have hm := antitoneOn_of_deriv_nonpos (convex_Icc 0 y) (hcont (1 + κ)) (hdiff (1 + κ)) (by
      intro z hz
      obtain ⟨hz0, hzy⟩ := hint z hz
      rw [(hder (1 + κ) z hz0).deriv]
      have := (abs_le.1 (hR z hz0.le (hzy.trans h2))).2
      have hp := Real.rpow_pos_of_pos hz0 (-1 / 2)
      apply mul_nonpos_of_nonneg_of_nonpos (by positivity); linarith)
    have := hm (left_mem_Icc.2 h1.le) (right_mem_Icc.2 h1.le) h1.le
    simp only at this
    rw [h00] at this
    have hy0 := mul_nonpos_of_nonneg_of_nonpos hw.le this
    rw [hval _ _ h1] at hy0
    linarith

section above
variable {a κ : ℝ} {g g' : ℝ → ℝ}

theorem hderE (ha : 0 < a) (hg : ∀ w, HasDerivAt g (g' w) w) (r z : ℝ) (hz : a ≤ z) :
    HasDerivAt (fun y => Real.exp (-1 * y) * y ^ (-1 / 2 : ℝ) * g (1 / y) - r * CI y)
      (z ^ (-1 / 2 : ℝ) * Real.exp (-1 * z) *
        (-(1 / 2) * (1 / z) * g (1 / z) - (1 / z) ^ 2 * g' (1 / z) - g (1 / z) + 1 + (r - 1))) z := by
  have hz0 : 0 < z := lt_of_lt_of_le ha hz
  refine ((hasDerivAt_cand (c := -1) hz0 (hg _)).sub ((hasDerivAt_C hz0).const_mul r)).congr_deriv ?_
  ring

theorem hvalE (ha : 0 < a) (r z : ℝ) (hz : a ≤ z) :
    Real.sqrt z * Real.exp z * (Real.exp (-1 * z) * z ^ (-1 / 2 : ℝ) * g (1 / z) - r * CI z) = g (1 / z) - r * eN z := by
  have hz0 : 0 < z := lt_of_lt_of_le ha hz
  have hs := Real.sqrt_pos.2 hz0
  rw [eN_eq, mul_sub, rpow_half hz0]
  have e : Real.exp z * Real.exp (-1 * z) = 1 := by rw [← Real.exp_add]; simp
  calc _ = (Real.exp z * Real.exp (-1 * z)) * (Real.sqrt z * (1 / Real.sqrt z)) * g (1 / z) -
        Real.sqrt z * Real.exp z * (r * CI z) := by ring
    _ = _ := by rw [e, mul_one_div_cancel hs.ne']; ring

/-- `exp(-y) y^(-1/2) g(1/y) - r ∫_y^∞` increases for `r = 1+κ`, decreases for `r = 1-κ`. -/
theorem monoE {s : Set ℝ} (hs : Convex ℝ s) (ha : 0 < a) (hsa : ∀ z ∈ s, a ≤ z) (hg : ∀ w, HasDerivAt g (g' w) w)
    (hR : ∀ y ∈ s, |-(1 / 2) * (1 / y) * g (1 / y) - (1 / y) ^ 2 * g' (1 / y) - g (1 / y) + 1| ≤ κ) :
    MonotoneOn (fun y => Real.exp (-1 * y) * y ^ (-1 / 2 : ℝ) * g (1 / y) - (1 + κ) * CI y) s ∧
    AntitoneOn (fun y => Real.exp (-1 * y) * y ^ (-1 / 2 : ℝ) * g (1 / y) - (1 - κ) * CI y) s := by
  have hcont : ∀ r, ContinuousOn (fun y => Real.exp (-1 * y) * y ^ (-1 / 2 : ℝ) * g (1 / y) - r * CI y) s :=
    fun r z hz => (hderE ha hg r z (hsa z hz)).continuousAt.continuousWithinAt
  have hdiff : ∀ r, DifferentiableOn ℝ (fun y => Real.exp (-1 * y) * y ^ (-1 / 2 : ℝ) * g (1 / y) - r * CI y) (interior s) :=
    fun r z hz => (hderE ha hg r z (hsa z (interior_subset hz))).differentiableAt.differentiableWithinAt
  constructor
  · refine monotoneOn_of_deriv_nonneg hs (hcont _) (hdiff _) fun z hz => ?_
    have hz' := interior_subset hz
    rw [(hderE ha hg (1 + κ) z (hsa z hz')).deriv]
    have hz0 : 0 < z := lt_of_lt_of_le ha (hsa z hz')
    have := (abs_le.1 (hR z hz')).1
    have hp := Real.rpow_pos_of_pos hz0 (-1 / 2)
    apply mul_nonneg (by positivity); linarith
  · refine antitoneOn_of_deriv_nonpos hs (hcont _) (hdiff _) fun z hz => ?_
    have hz' := interior_subset hz
    rw [(hderE ha hg (1 - κ) z (hsa z hz')).deriv]
    have hz0 : 0 < z := lt_of_lt_of_le ha (hsa z hz')
    have := (abs_le.1 (hR z hz')).2
    have hp := Real.rpow_pos_of_pos hz0 (-1 / 2)
    apply mul_nonpos_of_nonneg_of_nonpos (by positivity); linarith

/-- An approximation of `eN` on a panel, from its value at the right end and the residual. -/
theorem panelE {b : ℝ} (ha : 0 < a) (hg : ∀ w, HasDerivAt g (g' w) w)
    (hR : ∀ y, a ≤ y → y ≤ b → |-(1 / 2) * (1 / y) * g (1 / y) - (1 / y) ^ 2 * g' (1 / y) - g (1 / y) + 1| ≤ κ)
    (h0 : |g (1 / b) - eN b| ≤ κ * eN b) {y : ℝ} (h1 : a ≤ y) (h2 : y ≤ b) : |g (1 / y) - eN y| ≤ κ * eN y := by
  obtain ⟨hm, hm'⟩ := monoE (convex_Icc a b) ha (fun z hz => hz.1) hg (fun z hz => hR z hz.1 hz.2)
  have hab := h1.trans h2
  have hw : ∀ z : ℝ, a ≤ z → 0 < Real.sqrt z * Real.exp z := fun z hz =>
    mul_pos (Real.sqrt_pos.2 (lt_of_lt_of_le ha hz)) (Real.exp_pos _)
  rw [abs_le] at h0 ⊢
  constructor
  · have := hm' ⟨h1, h2⟩ (right_mem_Icc.2 hab) h2
    have hb0 : 0 ≤ Real.exp (-1 * b) * b ^ (-1 / 2 : ℝ) * g (1 / b) - (1 - κ) * CI b := by
      have h : 0 ≤ g (1 / b) - (1 - κ) * eN b := by linarith
      rw [← hvalE ha (1 - κ) b hab] at h
      exact nonneg_of_mul_nonneg_right h (hw b hab)
    have hy0 := mul_nonneg (hw y h1).le (hb0.trans this)
    rw [hvalE ha _ _ h1] at hy0
    linarith
  · have := hm ⟨h1, h2⟩ (right_mem_Icc.2 hab) h2
    have hb0 : Real.exp (-1 * b) * b ^ (-1 / 2 : ℝ) * g (1 / b) - (1 + κ) * CI b ≤ 0 := by
      have h : g (1 / b) - (1 + κ) * eN b ≤ 0 := by linarith
      rw [← hvalE ha (1 + κ) b hab] at h
      exact nonpos_of_mul_nonpos_right h (hw b hab)
    have hy0 := mul_nonpos_of_nonneg_of_nonpos (hw y h1).le (this.trans hb0)
    rw [hvalE ha _ _ h1] at hy0
    linarith

theorem tendsto_C : Filter.Tendsto CI Filter.atTop (nhds 0) := by
  have h := intervalIntegral_tendsto_integral_Ioi (0 : ℝ) (int_C le_rfl) Filter.tendsto_id
  have h2 := h.const_sub (CI 0)
  simp only [id] at h2
  rw [show CI 0 - ∫ x in Ioi (0 : ℝ), x ^ (-1 / 2 : ℝ) * Real.exp (-1 * x) = 0 from sub_self _] at h2
  refine h2.congr' ?_
  filter_upwards [Filter.eventually_ge_atTop 0] with y hy
  exact (C_eq hy).symm

/-- On an infinite panel nothing is needed at the end. -/
theorem lastE (ha : 0 < a) (hg : ∀ w, HasDerivAt g (g' w) w)
    (hR : ∀ y, a ≤ y → |-(1 / 2) * (1 / y) * g (1 / y) - (1 / y) ^ 2 * g' (1 / y) - g (1 / y) + 1| ≤ κ)
    {y : ℝ} (h1 : a ≤ y) : |g (1 / y) - eN y| ≤ κ * eN y := by
  obtain ⟨hm, hm'⟩ := monoE (convex_Ici a) ha (fun z hz => hz) hg (fun z hz => hR z hz)
  have hw : 0 < Real.sqrt y * Real.exp y := mul_pos (Real.sqrt_pos.2 (lt_of_lt_of_le ha h1)) (Real.exp_pos _)
  have hlim : ∀ r, Filter.Tendsto (fun y => Real.exp (-1 * y) * y ^ (-1 / 2 : ℝ) * g (1 / y) - r * CI y) Filter.atTop (nhds 0) := by
    intro r
    have t1 := tendsto_rpow_mul_exp_neg_mul_atTop_nhds_zero (-1 / 2) 1 one_pos
    have t2 : Filter.Tendsto (fun y : ℝ => g (1 / y)) Filter.atTop (nhds (g 0)) := by
      refine (hg 0).continuousAt.tendsto.comp ?_
      refine (tendsto_inv_atTop_zero (𝕜 := ℝ)).congr fun z => ?_
      rw [one_div]
    have t3 := (t1.mul t2).sub (tendsto_C.const_mul r)
    simp only [zero_mul, mul_zero, sub_zero] at t3
    refine t3.congr fun y => ?_
    ring
  rw [abs_le]
  constructor
  · have : 0 ≤ Real.exp (-1 * y) * y ^ (-1 / 2 : ℝ) * g (1 / y) - (1 - κ) * CI y := by
      refine le_of_tendsto (hlim (1 - κ)) ?_
      filter_upwards [Filter.eventually_ge_atTop y] with z hz
      exact hm' h1 (h1.trans hz) hz
    have hy0 := mul_nonneg hw.le this
    rw [hvalE ha _ _ h1] at hy0
    linarith
  · have : Real.exp (-1 * y) * y ^ (-1 / 2 : ℝ) * g (1 / y) - (1 + κ) * CI y ≤ 0 := by
      refine ge_of_tendsto (hlim (1 + κ)) ?_
      filter_upwards [Filter.eventually_ge_atTop y] with z hz
      exact hm h1 (h1.trans hz) hz
    have hy0 := mul_nonpos_of_nonneg_of_nonpos hw.le this
    rw [hvalE ha _ _ h1] at hy0
    linarith

end above

end FdTail
end Npplus
