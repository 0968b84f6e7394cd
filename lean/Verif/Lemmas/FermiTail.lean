import Verif.Lemmas.FermiCheb
import Mathlib.MeasureTheory.Integral.IntegralEqImproper
import Mathlib.Analysis.SpecialFunctions.ImproperIntegrals
import Mathlib.Analysis.SpecialFunctions.Integrability.Basic

/-!
# The Fermi-Dirac integrals for positive argument

The integral is split at `t = x`; on both sides `1/(1+u)`, `u = exp (-|t-x|)`, is replaced by a polynomial of `u`.  The result is a finite sum
of the integrals `∫₀ˣ t^s exp(m(t-x)) dt` and `∫ₓ^∞ t^s exp(m(x-t)) dt`.
-/

set_option linter.unusedSectionVars false
namespace Npplus
open MeasureTheory Set

namespace FdTail

/-- integral below `x` -/
noncomputable def DI (s m x : ℝ) : ℝ := ∫ t in (0 : ℝ)..x, t ^ s * Real.exp (m * (t - x))

/-- integral above `x` -/
noncomputable def EI (s m x : ℝ) : ℝ := ∫ t in Ioi x, t ^ s * Real.exp (m * (x - t))

theorem int_D {s m x : ℝ} (hs : -1 < s) : IntervalIntegrable (fun t : ℝ => t ^ s * Real.exp (m * (t - x))) volume 0 x :=
  (intervalIntegral.intervalIntegrable_rpow' hs).mul_continuousOn (by fun_prop)

theorem int_E {s m x : ℝ} (hs : -1 < s) (hm : 0 < m) (hx : 0 ≤ x) : IntegrableOn (fun t : ℝ => t ^ s * Real.exp (m * (x - t))) (Ioi x) := by
  have h : IntegrableOn (fun t : ℝ => Real.exp (m * x) * (t ^ s * Real.exp (-m * t ^ (1 : ℝ)))) (Ioi 0) :=
    (integrableOn_rpow_mul_exp_neg_mul_rpow (p := 1) (s := s) (b := m) hs one_pos hm).const_mul (Real.exp (m * x))
  refine (h.mono_set (Ioi_subset_Ioi hx)).congr_fun (fun t _ => ?_) measurableSet_Ioi
  simp only [Real.rpow_one]
  rw [show m * (x - t) = m * x + -m * t by ring, Real.exp_add]; ring

/-- integration by parts, below -/
theorem DI_rec {s m x : ℝ} (hs : 0 < s) (hm : 0 < m) (hx : 0 < x) : DI s m x = x ^ s / m - s / m * DI (s - 1) m x := by
  have key : ∫ t in (0 : ℝ)..x, (s * (t ^ (s - 1) * Real.exp (m * (t - x))) + m * (t ^ s * Real.exp (m * (t - x)))) =
      x ^ s * Real.exp (m * (x - x)) - 0 ^ s * Real.exp (m * (0 - x)) := by
    apply intervalIntegral.integral_eq_sub_of_hasDerivAt_of_le hx.le
      (f := fun t : ℝ => t ^ s * Real.exp (m * (t - x)))
    · apply ContinuousOn.mul
      · exact fun t _ => (Real.continuousAt_rpow_const _ _ (Or.inr hs.le)).continuousWithinAt
      · fun_prop
    · intro t ht
      have h1 := Real.hasDerivAt_rpow_const (x := t) (p := s) (Or.inl ht.1.ne')
      have h2 : HasDerivAt (fun t : ℝ => Real.exp (m * (t - x))) (Real.exp (m * (t - x)) * (m * 1)) t :=
        (((hasDerivAt_id t).sub_const x).const_mul m).exp
      exact (h1.mul h2).congr_deriv (by ring)
    · exact ((int_D (by linarith)).const_mul s).add ((int_D (by linarith)).const_mul m)
  rw [intervalIntegral.integral_add ((int_D (by linarith)).const_mul s) ((int_D (by linarith)).const_mul m),
    intervalIntegral.integral_const_mul, intervalIntegral.integral_const_mul, Real.zero_rpow hs.ne'] at key
  simp only [sub_self, mul_zero, Real.exp_zero, mul_one, zero_mul, sub_zero] at key
  unfold DI
  field_simp
  linarith

/-- integration by parts, above -/
theorem EI_rec {s m x : ℝ} (hs : 0 < s) (hm : 0 < m) (hx : 0 < x) : EI s m x = x ^ s / m + s / m * EI (s - 1) m x := by
  have i1 := (int_E (s := s - 1) (m := m) (x := x) (by linarith) hm hx.le).const_mul s
  have i2 := (int_E (s := s) (m := m) (x := x) (by linarith) hm hx.le).const_mul m
  have key : ∫ t in Ioi x, (s * (t ^ (s - 1) * Real.exp (m * (x - t))) - m * (t ^ s * Real.exp (m * (x - t)))) =
      0 - x ^ s * Real.exp (m * (x - x)) := by
    apply integral_Ioi_of_hasDerivAt_of_tendsto (f := fun t : ℝ => t ^ s * Real.exp (m * (x - t)))
    · apply ContinuousAt.continuousWithinAt
      apply ContinuousAt.mul
      · exact Real.continuousAt_rpow_const _ _ (Or.inr hs.le)
      · fun_prop
    · intro t ht
      have ht' : 0 < t := hx.trans ht
      have h1 := Real.hasDerivAt_rpow_const (x := t) (p := s) (Or.inl ht'.ne')
      have h2 : HasDerivAt (fun t : ℝ => Real.exp (m * (x - t))) (Real.exp (m * (x - t)) * (m * (-1))) t :=
        (((hasDerivAt_id t).const_sub x).const_mul m).exp
      exact (h1.mul h2).congr_deriv (by ring)
    · exact i1.sub i2
    · have h := (tendsto_rpow_mul_exp_neg_mul_atTop_nhds_zero s m hm).const_mul (Real.exp (m * x))
      rw [mul_zero] at h
      refine h.congr fun t => ?_
      rw [show m * (x - t) = m * x + -m * t by ring, Real.exp_add]; ring
  rw [integral_sub i1 i2, integral_const_mul, integral_const_mul] at key
  simp only [sub_self, mul_zero, Real.exp_zero, mul_one] at key
  unfold EI
  field_simp
  linarith

/-- scaling, below -/
theorem DI_scale {m x : ℝ} (hm : 0 < m) (hx : 0 < x) :
    Real.sqrt x * DI (-1 / 2) m x = Real.sqrt (m * x) * DI (-1 / 2) 1 (m * x) / m := by
  have h := intervalIntegral.integral_comp_mul_left (a := 0) (b := x) (fun t : ℝ => t ^ (-1 / 2 : ℝ) * Real.exp (1 * (t - m * x))) hm.ne'
  have e : ∫ t in (0 : ℝ)..x, (m * t) ^ (-1 / 2 : ℝ) * Real.exp (1 * (m * t - m * x)) = m ^ (-1 / 2 : ℝ) * DI (-1 / 2) m x := by
    unfold DI
    rw [← intervalIntegral.integral_const_mul]
    apply intervalIntegral.integral_congr
    intro t ht
    rw [uIcc_of_le hx.le] at ht
    simp only
    rw [Real.mul_rpow hm.le ht.1, show 1 * (m * t - m * x) = m * (t - x) by ring]; ring
  rw [e, mul_zero, smul_eq_mul] at h
  have hmm : m ^ (-1 / 2 : ℝ) = 1 / Real.sqrt m := by
    rw [show (-1 / 2 : ℝ) = -(1 / 2) by ring, Real.rpow_neg hm.le, ← Real.sqrt_eq_rpow]; simp
  have hs : 0 < Real.sqrt m := Real.sqrt_pos.2 hm
  rw [hmm] at h
  have hD : DI (-1 / 2) m x = Real.sqrt m * (m⁻¹ * DI (-1 / 2) 1 (m * x)) := by
    unfold DI at h ⊢
    rw [← h]; field_simp
  rw [hD, Real.sqrt_mul hm.le]
  field_simp

/-- scaling, above -/
theorem EI_scale {m x : ℝ} (hm : 0 < m) (hx : 0 < x) :
    Real.sqrt x * EI (-1 / 2) m x = Real.sqrt (m * x) * EI (-1 / 2) 1 (m * x) / m := by
  have h := integral_comp_mul_left_Ioi (fun t : ℝ => t ^ (-1 / 2 : ℝ) * Real.exp (1 * (m * x - t))) x hm
  have e : ∫ t in Ioi x, (m * t) ^ (-1 / 2 : ℝ) * Real.exp (1 * (m * x - m * t)) = m ^ (-1 / 2 : ℝ) * EI (-1 / 2) m x := by
    unfold EI
    rw [← integral_const_mul]
    apply setIntegral_congr_fun measurableSet_Ioi
    intro t ht
    have ht' : 0 < t := hx.trans ht
    simp only
    rw [Real.mul_rpow hm.le ht'.le, show 1 * (m * x - m * t) = m * (x - t) by ring]; ring
  rw [e, smul_eq_mul] at h
  have hmm : m ^ (-1 / 2 : ℝ) = 1 / Real.sqrt m := by
    rw [show (-1 / 2 : ℝ) = -(1 / 2) by ring, Real.rpow_neg hm.le, ← Real.sqrt_eq_rpow]; simp
  have hs : 0 < Real.sqrt m := Real.sqrt_pos.2 hm
  rw [hmm] at h
  have hD : EI (-1 / 2) m x = Real.sqrt m * (m⁻¹ * EI (-1 / 2) 1 (m * x)) := by
    unfold EI at h ⊢
    rw [← h]; field_simp
  rw [hD, Real.sqrt_mul hm.le]
  field_simp

theorem int_FD {s x : ℝ} (hs : -1 < s) : IntervalIntegrable (fun t : ℝ => t ^ s / (Real.exp (t - x) + 1)) volume 0 x := by
  simp only [div_eq_mul_inv]
  refine (intervalIntegral.intervalIntegrable_rpow' hs).mul_continuousOn (Continuous.continuousOn ?_)
  refine Continuous.inv₀ (by fun_prop) fun t => ?_
  have := Real.exp_pos (t - x); positivity

theorem int_FE {s x : ℝ} (hs : -1 < s) (hx : 0 ≤ x) : IntegrableOn (fun t : ℝ => t ^ s / (Real.exp (t - x) + 1)) (Ioi x) := by
  refine (int_E hs one_pos hx).mono' ?_ ?_
  · apply Measurable.aestronglyMeasurable
    fun_prop
  · filter_upwards [ae_restrict_mem measurableSet_Ioi] with t ht
    have ht' : 0 < t := lt_of_le_of_lt hx ht
    have hr : 0 ≤ t ^ s := Real.rpow_nonneg ht'.le _
    have hp := Real.exp_pos (t - x)
    rw [Real.norm_of_nonneg (by positivity)]
    calc t ^ s / (Real.exp (t - x) + 1) ≤ t ^ s / Real.exp (t - x) := by
          apply div_le_div_of_nonneg_left hr hp; linarith
      _ = t ^ s * Real.exp (1 * (x - t)) := by
        rw [div_eq_mul_inv, ← Real.exp_neg]; congr 2; ring

theorem fermi_split {s x : ℝ} (hs : -1 < s) (hx : 0 < x) : Spec.fermiDirac s x =
    (∫ t in (0 : ℝ)..x, t ^ s / (Real.exp (t - x) + 1)) + ∫ t in Ioi x, t ^ s / (Real.exp (t - x) + 1) := by
  unfold Spec.fermiDirac
  have h1 : IntegrableOn (fun t : ℝ => t ^ s / (Real.exp (t - x) + 1)) (Ioc 0 x) :=
    (intervalIntegrable_iff_integrableOn_Ioc_of_le hx.le).1 (int_FD hs)
  rw [intervalIntegral.integral_of_le hx.le, ← setIntegral_union (Ioc_disjoint_Ioi le_rfl) measurableSet_Ioi h1 (int_FE hs hx.le),
    Ioc_union_Ioi_eq_Ioi hx.le]

/-- The integral as a finite sum, for any polynomial close to `1/(1+u)`. -/
theorem fermi_sum {s x δ : ℝ} (hs : -1 < s) (hx : 0 < x) (N : ℕ) (a : ℕ → ℝ)
    (ha : ∀ u : ℝ, 0 ≤ u → u ≤ 1 → |(1 + u) * (∑ m ∈ Finset.range N, a m * u ^ m) - 1| ≤ δ) :
    |Spec.fermiDirac s x - (x ^ (s + 1) / (s + 1) + ∑ m ∈ Finset.range N, a m * (EI s (m + 1) x - DI s (m + 1) x))| ≤
      δ * Spec.fermiDirac s x := by
  have hm : ∀ m : ℕ, (0 : ℝ) < (m : ℝ) + 1 := fun m => by positivity
  have hpow : ∀ (m : ℕ) (y : ℝ), Real.exp (((m : ℝ) + 1) * y) = Real.exp y * Real.exp y ^ m := by
    intro m y; rw [← pow_succ', ← Real.exp_nat_mul]; push_cast; rfl
  -- below
  have iD : ∀ m ∈ Finset.range N, IntervalIntegrable (fun t : ℝ => a m * (t ^ s * Real.exp (((m : ℝ) + 1) * (t - x)))) volume 0 x :=
    fun m _ => (int_D hs).const_mul _
  have iP : IntervalIntegrable (fun t : ℝ => t ^ s) volume 0 x := intervalIntegral.intervalIntegrable_rpow' hs
  have iSD : IntervalIntegrable (fun t : ℝ => ∑ m ∈ Finset.range N, a m * (t ^ s * Real.exp (((m : ℝ) + 1) * (t - x)))) volume 0 x := by
    have := IntervalIntegrable.sum (Finset.range N) iD
    refine this.congr ?_
    intro t _
    simp
  have eD : ∫ t in (0 : ℝ)..x, (t ^ s - ∑ m ∈ Finset.range N, a m * (t ^ s * Real.exp (((m : ℝ) + 1) * (t - x)))) =
      x ^ (s + 1) / (s + 1) - ∑ m ∈ Finset.range N, a m * DI s (m + 1) x := by
    rw [intervalIntegral.integral_sub iP iSD, integral_rpow (Or.inl hs), Real.zero_rpow (by linarith), sub_zero,
      intervalIntegral.integral_finset_sum iD]
    simp only [intervalIntegral.integral_const_mul]
    rfl
  have bD : |(∫ t in (0 : ℝ)..x, t ^ s / (Real.exp (t - x) + 1)) -
      (x ^ (s + 1) / (s + 1) - ∑ m ∈ Finset.range N, a m * DI s (m + 1) x)| ≤ δ * ∫ t in (0 : ℝ)..x, t ^ s / (Real.exp (t - x) + 1) := by
    rw [← eD, ← intervalIntegral.integral_sub (int_FD hs) (iP.sub iSD), ← intervalIntegral.integral_const_mul]
    rw [← Real.norm_eq_abs]
    refine intervalIntegral.norm_integral_le_of_norm_le hx.le ?_ ((int_FD hs).const_mul δ)
    filter_upwards with t ht
    have hr : 0 ≤ t ^ s := Real.rpow_nonneg ht.1.le _
    set u := Real.exp (t - x) with hu
    have hu0 : 0 < u := Real.exp_pos _
    have hu1 : u ≤ 1 := Real.exp_le_one_iff.2 (by linarith [ht.2])
    have hb := ha u hu0.le hu1
    have hδ : 0 ≤ δ := (abs_nonneg _).trans hb
    have e : t ^ s / (u + 1) - (t ^ s - ∑ m ∈ Finset.range N, a m * (t ^ s * Real.exp (((m : ℝ) + 1) * (t - x)))) =
        t ^ s / (u + 1) * (u * ((1 + u) * (∑ m ∈ Finset.range N, a m * u ^ m) - 1)) := by
      have : ∑ m ∈ Finset.range N, a m * (t ^ s * Real.exp (((m : ℝ) + 1) * (t - x))) = t ^ s * u * ∑ m ∈ Finset.range N, a m * u ^ m := by
        rw [Finset.mul_sum]; refine Finset.sum_congr rfl fun m _ => ?_
        rw [hpow, ← hu]; ring
      rw [this]; field_simp; ring
    rw [e, Real.norm_eq_abs, abs_mul, abs_mul, abs_of_nonneg (by positivity : 0 ≤ t ^ s / (u + 1)), abs_of_pos hu0, mul_comm]
    refine mul_le_mul_of_nonneg_right ?_ (by positivity)
    calc _ ≤ 1 * δ := mul_le_mul hu1 hb (abs_nonneg _) zero_le_one
      _ = δ := one_mul _
  -- above
  have iE : ∀ m ∈ Finset.range N, Integrable (fun t : ℝ => a m * (t ^ s * Real.exp (((m : ℝ) + 1) * (x - t)))) (volume.restrict (Ioi x)) :=
    fun m _ => (int_E hs (hm m) hx.le).const_mul _
  have iSE := integrable_finset_sum _ iE
  have eE : ∫ t in Ioi x, (∑ m ∈ Finset.range N, a m * (t ^ s * Real.exp (((m : ℝ) + 1) * (x - t)))) =
      ∑ m ∈ Finset.range N, a m * EI s (m + 1) x := by
    rw [integral_finset_sum _ iE]
    simp only [integral_const_mul]
    rfl
  have bE : |(∫ t in Ioi x, t ^ s / (Real.exp (t - x) + 1)) - ∑ m ∈ Finset.range N, a m * EI s (m + 1) x| ≤
      δ * ∫ t in Ioi x, t ^ s / (Real.exp (t - x) + 1) := by
    have iF : Integrable (fun t : ℝ => t ^ s / (Real.exp (t - x) + 1)) (volume.restrict (Ioi x)) := int_FE hs hx.le
    rw [← eE, ← integral_sub iF iSE, ← integral_const_mul, ← Real.norm_eq_abs]
    refine norm_integral_le_of_norm_le (iF.const_mul δ) ?_
    filter_upwards [ae_restrict_mem measurableSet_Ioi] with t ht
    have ht' : 0 < t := hx.trans ht
    have hr : 0 ≤ t ^ s := Real.rpow_nonneg ht'.le _
    set u := Real.exp (x - t) with hu
    have hu0 : 0 < u := Real.exp_pos _
    have hu1 : u ≤ 1 := Real.exp_le_one_iff.2 (by have : x < t := ht; linarith)
    have hb := ha u hu0.le hu1
    have hex : Real.exp (t - x) = 1 / u := by rw [hu, one_div, ← Real.exp_neg]; congr 1; ring
    have e : t ^ s / (Real.exp (t - x) + 1) - ∑ m ∈ Finset.range N, a m * (t ^ s * Real.exp (((m : ℝ) + 1) * (x - t))) =
        -(t ^ s / (Real.exp (t - x) + 1) * ((1 + u) * (∑ m ∈ Finset.range N, a m * u ^ m) - 1)) := by
      have : ∑ m ∈ Finset.range N, a m * (t ^ s * Real.exp (((m : ℝ) + 1) * (x - t))) = t ^ s * u * ∑ m ∈ Finset.range N, a m * u ^ m := by
        rw [Finset.mul_sum]; refine Finset.sum_congr rfl fun m _ => ?_
        rw [hpow, ← hu]; ring
      rw [this, hex]; field_simp; ring
    have hq : 0 ≤ t ^ s / (Real.exp (t - x) + 1) := by have := Real.exp_pos (t - x); positivity
    rw [e, Real.norm_eq_abs, abs_neg, abs_mul, abs_of_nonneg hq, mul_comm]
    exact mul_le_mul_of_nonneg_right hb hq
  rw [fermi_split hs hx]
  simp only [mul_sub, Finset.sum_sub_distrib]
  rw [abs_le] at bD bE ⊢
  constructor <;> linarith [bD.1, bD.2, bE.1, bE.2]

end FdTail
end Npplus
