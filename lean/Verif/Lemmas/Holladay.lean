import Verif.Spec.Smooth
import Mathlib.MeasureTheory.Integral.DivergenceTheorem
import Mathlib.MeasureTheory.Function.L2Space
import Mathlib.Analysis.Calculus.Deriv.Mul
import Mathlib.Analysis.Calculus.Deriv.Add

/-!
# Integration by parts for splines of odd degree
-/

set_option linter.unusedSectionVars false
namespace Npplus
open Spec Set MeasureTheory Finset

theorem Spec.SquareIntegrable.off {m : ℕ} {G : ℕ → ℝ → ℝ} {a b : ℝ} (h : SquareIntegrable m G a b) :
    ∃ T : Set ℝ, T.Countable ∧ ∀ k < m, ∀ x ∈ Ioo a b \ T, HasDerivAt (G k) (G (k + 1) x) x := by
  obtain ⟨T, hT, h1⟩ := h.last
  refine ⟨T, hT, fun k hk x hx => ?_⟩
  by_cases hk' : k + 1 < m
  · exact h.deriv k hk' x hx.1
  · obtain rfl : m = k + 1 := by omega
    exact h1 x hx

theorem Spec.SquareIntegrable.mono {m : ℕ} {G : ℕ → ℝ → ℝ} {a b a' b' : ℝ} (h : SquareIntegrable m G a b) (ha : a ≤ a') (hb : b' ≤ b) :
    SquareIntegrable m G a' b' := by
  refine ⟨fun k hk => (h.cont k hk).mono (Icc_subset_Icc ha hb), fun k hk x hx => h.deriv k hk x (Ioo_subset_Ioo ha hb hx), ?_, ?_⟩
  · obtain ⟨T, hT, h1⟩ := h.last
    exact ⟨T, hT, fun x hx => h1 x ⟨Ioo_subset_Ioo ha hb hx.1, hx.2⟩⟩
  · exact h.sq.mono_measure (Measure.restrict_mono (Icc_subset_Icc ha hb) le_rfl)

theorem memLp_intervalIntegrable {f : ℝ → ℝ} {a b : ℝ} (hab : a ≤ b) (h : MemLp f 2 (volume.restrict (Icc a b))) :
    IntervalIntegrable f volume a b ∧ IntervalIntegrable (fun t => f t ^ 2) volume a b := by
  rw [intervalIntegrable_iff_integrableOn_Icc_of_le hab, intervalIntegrable_iff_integrableOn_Icc_of_le hab]
  exact ⟨h.integrable (by norm_num), h.integrable_sq⟩

/-- the integrated terms -/
noncomputable def parts (m : ℕ) (Q G : ℕ → ℝ → ℝ) (t : ℝ) : ℝ :=
  ∑ r ∈ range m, (-1) ^ r * (Q (m + r) t * (G (m - 1 - r) t - Q (m - 1 - r) t))

theorem parts_integral {m : ℕ} {Q G : ℕ → ℝ → ℝ} {a b : ℝ} (hab : a ≤ b) (hG : SquareIntegrable m G a b)
    (hQ : ∀ k t, HasDerivAt (Q k) (Q (k + 1) t) t) (hQ0 : ∀ t, Q (2 * m) t = 0) :
    ∫ t in a..b, Q m t * (G m t - Q m t) = parts m Q G b - parts m Q G a := by
  obtain ⟨T, hT, hd⟩ := hG.off
  have hQc : ∀ k, Continuous (Q k) := fun k => continuous_iff_continuousAt.2 fun t => (hQ k t).continuousAt
  refine integral_eq_of_hasDerivAt_off_countable_of_le (parts m Q G) _ hab hT ?_ (fun t ht => ?_) ?_
  · unfold parts
    refine continuousOn_finsetSum _ fun r hr => ?_
    have := Finset.mem_range.1 hr
    exact continuousOn_const.mul ((hQc _).continuousOn.mul ((hG.cont _ (by omega)).sub (hQc _).continuousOn))
  · have key : ∀ r ∈ range m, HasDerivAt (fun t => (-1 : ℝ) ^ r * (Q (m + r) t * (G (m - 1 - r) t - Q (m - 1 - r) t)))
        ((-1) ^ r * (Q (m + r) t * (G (m - r) t - Q (m - r) t)) -
          (-1) ^ (r + 1) * (Q (m + (r + 1)) t * (G (m - (r + 1)) t - Q (m - (r + 1)) t))) t := by
      intro r hr
      have hr := Finset.mem_range.1 hr
      have h1 := hd (m - 1 - r) (by omega) t ht
      have h2 := hQ (m - 1 - r) t
      have e : m - 1 - r + 1 = m - r := by omega
      have e' : m - (r + 1) = m - 1 - r := by omega
      rw [e] at h1 h2
      rw [e']
      have := ((hQ (m + r) t).mul (h1.sub h2)).const_mul ((-1 : ℝ) ^ r)
      refine this.congr_deriv ?_
      have e3 : m + (r + 1) = m + r + 1 := rfl
      simp only [Pi.sub_apply]
      rw [e3, pow_succ]
      ring
    have := HasDerivAt.fun_sum key
    rw [Finset.sum_range_sub'] at this
    refine this.congr_deriv ?_
    simp [← two_mul, hQ0]
  · have := (memLp_intervalIntegrable hab hG.sq).1
    exact (this.sub ((hQc m).intervalIntegrable _ _)).continuousOn_mul (hQc m).continuousOn

/-- the terms at the knots between the intervals cancel -/
theorem parts_sum {m N : ℕ} {Q : ℕ → ℕ → ℝ → ℝ} {G : ℕ → ℝ → ℝ} {a : ℕ → ℝ}
    (hm : ∀ i, i + 1 < N → ∀ k, k + 2 ≤ 2 * m → Q i k (a (i + 1)) = Q (i + 1) k (a (i + 1)))
    (hi : ∀ i < N, G 0 (a i) = Q i 0 (a i) ∧ G 0 (a (i + 1)) = Q i 0 (a (i + 1))) (hN : 1 ≤ N) :
    ∑ i ∈ range N, (parts m (Q i) G (a (i + 1)) - parts m (Q i) G (a i)) = parts m (Q (N - 1)) G (a N) - parts m (Q 0) G (a 0) := by
  induction N, hN using Nat.le_induction with
  | base => simp
  | succ N hN ih =>
    rw [Finset.sum_range_succ, ih (fun i h => hm i (by omega)) (fun i h => hi i (by omega))]
    have : parts m (Q (N - 1)) G (a N) = parts m (Q N) G (a N) := by
      unfold parts
      refine Finset.sum_congr rfl fun r hr => ?_
      have hr := Finset.mem_range.1 hr
      have hm' := hm (N - 1) (by omega)
      rw [Nat.sub_add_cancel hN] at hm'
      rcases Nat.lt_or_ge (r + 1) m with h | h
      · rw [hm' _ (by omega), hm' _ (by omega)]
      · have e : m - 1 - r = 0 := by omega
        have h1 := (hi (N - 1) (by omega)).2
        rw [Nat.sub_add_cancel hN] at h1
        rw [e, ← h1, ← (hi N (by omega)).1]
        simp
    rw [this, Nat.add_sub_cancel]
    ring

theorem integral_Ioc_congr {f g : ℝ → ℝ} {a b : ℝ} (hab : a ≤ b) (h : ∀ t ∈ Ioc a b, f t = g t) : ∫ t in a..b, f t = ∫ t in a..b, g t := by
  rw [intervalIntegral.integral_of_le hab, intervalIntegral.integral_of_le hab]
  exact setIntegral_congr_fun measurableSet_Ioc h

/-- Holladay's identity, given that the terms at the ends cancel -/
theorem holladay {m N : ℕ} {Q : ℕ → ℕ → ℝ → ℝ} {G : ℕ → ℝ → ℝ} {a : ℕ → ℝ} {D : ℝ → ℝ} (ha : ∀ i < N, a i < a (i + 1))
    (hG : SquareIntegrable m G (a 0) (a N)) (hQ : ∀ i k t, HasDerivAt (Q i k) (Q i (k + 1) t) t) (hQ0 : ∀ i < N, ∀ t, Q i (2 * m) t = 0)
    (hD : ∀ i < N, ∀ t ∈ Ioc (a i) (a (i + 1)), D t = Q i m t)
    (hm : ∀ i, i + 1 < N → ∀ k, k + 2 ≤ 2 * m → Q i k (a (i + 1)) = Q (i + 1) k (a (i + 1)))
    (hi : ∀ i < N, G 0 (a i) = Q i 0 (a i) ∧ G 0 (a (i + 1)) = Q i 0 (a (i + 1))) (hN : 1 ≤ N)
    (hend : parts m (Q (N - 1)) G (a N) = parts m (Q 0) G (a 0)) :
    ∫ t in (a 0)..(a N), G m t ^ 2 = (∫ t in (a 0)..(a N), D t ^ 2) + ∫ t in (a 0)..(a N), (G m t - D t) ^ 2 := by
  have hmono : ∀ i j, i ≤ j → j ≤ N → a i ≤ a j := by
    intro i j hij
    induction j, hij using Nat.le_induction with
    | base => exact fun _ => le_rfl
    | succ j _ ih => exact fun h => (ih (by omega)).trans (ha j (by omega)).le
  have hGi : ∀ i < N, SquareIntegrable m G (a i) (a (i + 1)) := fun i h => hG.mono (hmono 0 i (by omega) (by omega)) (hmono (i + 1) N h le_rfl)
  have hQc : ∀ i k, Continuous (Q i k) := fun i k => continuous_iff_continuousAt.2 fun t => (hQ i k t).continuousAt
  have hG1 := fun i (h : i < N) => memLp_intervalIntegrable (ha i h).le (hGi i h).sq
  have hQG : ∀ i < N, IntervalIntegrable (fun t => Q i m t * (G m t - Q i m t)) volume (a i) (a (i + 1)) := fun i h =>
    ((hG1 i h).1.sub ((hQc i m).intervalIntegrable _ _)).continuousOn_mul (hQc i m).continuousOn
  have hQ2 : ∀ i, IntervalIntegrable (fun t => Q i m t ^ 2) volume (a i) (a (i + 1)) := fun i => ((hQc i m).pow 2).intervalIntegrable _ _
  have hdiff : ∀ i < N, IntervalIntegrable (fun t => (G m t - Q i m t) ^ 2) volume (a i) (a (i + 1)) := by
    intro i h
    have h2 := ((hG1 i h).2.sub ((hQG i h).const_mul 2)).sub (hQ2 i)
    have e : (fun t => (G m t - Q i m t) ^ 2) = fun t => G m t ^ 2 - 2 * (Q i m t * (G m t - Q i m t)) - Q i m t ^ 2 := by
      funext t
      ring
    rw [e]
    exact h2
  have hDi : ∀ i < N, IntervalIntegrable (fun t => D t ^ 2) volume (a i) (a (i + 1)) := fun i h =>
    (hQ2 i).congr fun t ht => by
      rw [uIoc_of_le (ha i h).le] at ht
      simp only [hD i h t ht]
  have hdD : ∀ i < N, IntervalIntegrable (fun t => (G m t - D t) ^ 2) volume (a i) (a (i + 1)) := fun i h =>
    (hdiff i h).congr fun t ht => by
      rw [uIoc_of_le (ha i h).le] at ht
      simp only [hD i h t ht]
  rw [← intervalIntegral.sum_integral_adjacent_intervals fun i h => (hG1 i h).2,
    ← intervalIntegral.sum_integral_adjacent_intervals hDi, ← intervalIntegral.sum_integral_adjacent_intervals hdD,
    ← Finset.sum_add_distrib]
  have key : ∀ i ∈ range N, ∫ t in (a i)..(a (i + 1)), G m t ^ 2 =
      (∫ t in (a i)..(a (i + 1)), D t ^ 2) + (∫ t in (a i)..(a (i + 1)), (G m t - D t) ^ 2) +
        2 * (parts m (Q i) G (a (i + 1)) - parts m (Q i) G (a i)) := by
    intro i hi'
    have h := Finset.mem_range.1 hi'
    rw [← parts_integral (ha i h).le (hGi i h) (hQ i) (hQ0 i h),
      integral_Ioc_congr (ha i h).le fun t ht => show D t ^ 2 = Q i m t ^ 2 by rw [hD i h t ht],
      integral_Ioc_congr (ha i h).le fun t ht => show (G m t - D t) ^ 2 = (G m t - Q i m t) ^ 2 by rw [hD i h t ht],
      ← intervalIntegral.integral_add (hQ2 i) (hdiff i h), ← intervalIntegral.integral_const_mul,
      ← intervalIntegral.integral_add ((hQ2 i).add (hdiff i h)) ((hQG i h).const_mul 2)]
    congr 1
    funext t
    ring
  rw [Finset.sum_congr rfl key, Finset.sum_add_distrib, ← Finset.mul_sum, parts_sum hm hi hN, hend]
  ring

end Npplus
