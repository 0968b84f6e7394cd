import Verif.Lemmas.SplineErr

/-!
# The second integral relation of splines of odd degree
-/

set_option linter.unusedSectionVars false
namespace Npplus
open Spec Set MeasureTheory Finset

/-- the integrated terms -/
noncomputable def parts2 (m : ℕ) (E : ℕ → ℝ → ℝ) (t : ℝ) : ℝ :=
  ∑ r ∈ range m, (-1) ^ r * (E (m + r) t * E (m - 1 - r) t)

theorem parts2_integral {m : ℕ} (hm : 1 ≤ m) {E : ℕ → ℝ → ℝ} {a b : ℝ} (hab : a ≤ b) (hE : Derivs (2 * m) E a b)
    (hi : IntervalIntegrable (E (2 * m)) volume a b) :
    ∫ t in a..b, (E m t ^ 2 - (-1) ^ m * (E (2 * m) t * E 0 t)) = parts2 m E b - parts2 m E a := by
  have h0 : ContinuousOn (E 0) (uIcc a b) := by
    rw [uIcc_of_le hab]
    exact hE.cont 0 (by omega)
  have hmc : ContinuousOn (E m) (uIcc a b) := by
    rw [uIcc_of_le hab]
    exact hE.cont m (by omega)
  refine integral_eq_of_hasDerivAt_off_countable_of_le (parts2 m E) _ hab Set.countable_empty ?_ (fun t ht => ?_) ?_
  · unfold parts2
    refine continuousOn_finsetSum _ fun r hr => ?_
    have := Finset.mem_range.1 hr
    exact continuousOn_const.mul ((hE.cont _ (by omega)).mul (hE.cont _ (by omega)))
  · have key : ∀ r ∈ range m, HasDerivAt (fun t => (-1 : ℝ) ^ r * (E (m + r) t * E (m - 1 - r) t))
        ((-1) ^ r * (E (m + r) t * E (m - r) t) - (-1) ^ (r + 1) * (E (m + (r + 1)) t * E (m - (r + 1)) t)) t := by
      intro r hr
      have hr := Finset.mem_range.1 hr
      have h1 := hE.deriv (m - 1 - r) (by omega) t ht.1
      have h2 := hE.deriv (m + r) (by omega) t ht.1
      rw [show m - 1 - r + 1 = m - r by omega] at h1
      rw [show m - (r + 1) = m - 1 - r by omega]
      have := (h2.mul h1).const_mul ((-1 : ℝ) ^ r)
      refine this.congr_deriv ?_
      rw [show m + (r + 1) = m + r + 1 from rfl, pow_succ]
      ring
    have := HasDerivAt.fun_sum key
    rw [Finset.sum_range_sub'] at this
    refine this.congr_deriv ?_
    simp [← two_mul, sq]
  · have h1 : IntervalIntegrable (fun t => E m t ^ 2) volume a b := (hmc.pow 2).intervalIntegrable
    exact h1.sub ((hi.mul_continuousOn h0).const_mul _)

theorem parts2_sum {m N : ℕ} {E : ℕ → ℕ → ℝ → ℝ} {a : ℕ → ℝ}
    (hm : ∀ i, i + 1 < N → ∀ k, k + 2 ≤ 2 * m → E i k (a (i + 1)) = E (i + 1) k (a (i + 1)))
    (hi : ∀ i < N, E i 0 (a i) = 0 ∧ E i 0 (a (i + 1)) = 0) (hN : 1 ≤ N) :
    ∑ i ∈ range N, (parts2 m (E i) (a (i + 1)) - parts2 m (E i) (a i)) = parts2 m (E (N - 1)) (a N) - parts2 m (E 0) (a 0) := by
  induction N, hN using Nat.le_induction with
  | base => simp
  | succ N hN ih =>
    rw [Finset.sum_range_succ, ih (fun i h => hm i (by omega)) (fun i h => hi i (by omega))]
    have : parts2 m (E (N - 1)) (a N) = parts2 m (E N) (a N) := by
      unfold parts2
      refine Finset.sum_congr rfl fun r hr => ?_
      have hr := Finset.mem_range.1 hr
      have hm' := hm (N - 1) (by omega)
      rw [Nat.sub_add_cancel hN] at hm'
      rcases Nat.lt_or_ge (r + 1) m with h | h
      · rw [hm' _ (by omega), hm' _ (by omega)]
      · have e : m - 1 - r = 0 := by omega
        have h1 := (hi (N - 1) (by omega)).2
        rw [Nat.sub_add_cancel hN] at h1
        rw [e, h1, (hi N (by omega)).1]
        simp
    rw [this, Nat.add_sub_cancel]
    ring

/-- a function with `m` derivatives ... is bounded by the second integral relation -/
theorem second_relation {m : ℕ} {e : ℕ → ℝ → ℝ} {a b w A : ℝ} (hw : 0 ≤ w) (hA : 0 ≤ A) {f : ℝ → ℝ} (hf : IntervalIntegrable f volume a b)
    (hab : a ≤ b) (hfA : ∫ t in a..b, |f t| ≤ A) (hc : ContinuousOn (e 0) (Icc a b))
    (hrel : ∫ t in a..b, e m t ^ 2 = (-1) ^ m * ∫ t in a..b, f t * e 0 t)
    (hm : 1 ≤ m) (hb : ∀ k < m, ∀ t ∈ Icc a b, |e k t| ≤ w ^ (m - 1 - k) * √(w * ∫ r in a..b, e m r ^ 2)) :
    ∀ k < m, ∀ t ∈ Icc a b, |e k t| ≤ w ^ (2 * m - 1 - k) * A := by
  set I := ∫ r in a..b, e m r ^ 2 with hI
  have hI0 : 0 ≤ I := intervalIntegral.integral_nonneg hab fun r _ => sq_nonneg _
  have hs0 : 0 ≤ √(w * I) := Real.sqrt_nonneg _
  -- the integral of f e
  have h1 : I ≤ w ^ (m - 1) * √(w * I) * A := by
    have hn : |I| = |∫ t in a..b, f t * e 0 t| := by
      rw [hrel, abs_mul, abs_pow, abs_neg, abs_one, one_pow, one_mul]
    have h2 : |∫ t in a..b, f t * e 0 t| ≤ ∫ t in a..b, |f t| * (w ^ (m - 1) * √(w * I)) := by
      refine (intervalIntegral.abs_integral_le_integral_abs hab).trans ?_
      refine intervalIntegral.integral_mono_on hab ?_ (hf.abs.mul_const _) fun t ht => ?_
      · have : ContinuousOn (e 0) (uIcc a b) := by rwa [uIcc_of_le hab]
        exact (hf.mul_continuousOn this).abs
      · rw [abs_mul]
        exact mul_le_mul_of_nonneg_left (hb 0 (by omega) t ht) (abs_nonneg _)
    rw [intervalIntegral.integral_mul_const] at h2
    rw [abs_of_nonneg hI0] at hn
    refine (hn.le.trans h2).trans ?_
    rw [mul_comm]
    exact mul_le_mul_of_nonneg_left hfA (mul_nonneg (pow_nonneg hw _) hs0)
  -- sqrt (w I) ≤ w^m A
  have h2 : √(w * I) ≤ w ^ m * A := by
    rcases eq_or_lt_of_le hs0 with h | h
    · rw [← h]
      exact mul_nonneg (pow_nonneg hw _) hA
    · have hsq : √(w * I) * √(w * I) = w * I := Real.mul_self_sqrt (mul_nonneg hw hI0)
      have h3 : √(w * I) * √(w * I) ≤ w ^ m * A * √(w * I) := by
        rw [hsq]
        calc w * I ≤ w * (w ^ (m - 1) * √(w * I) * A) := mul_le_mul_of_nonneg_left h1 hw
          _ = w ^ (m - 1 + 1) * A * √(w * I) := by ring
          _ = w ^ m * A * √(w * I) := by rw [Nat.sub_add_cancel hm]
      exact le_of_mul_le_mul_right h3 h
  intro k hk t ht
  refine (hb k hk t ht).trans ?_
  calc w ^ (m - 1 - k) * √(w * I) ≤ w ^ (m - 1 - k) * (w ^ m * A) := mul_le_mul_of_nonneg_left h2 (pow_nonneg hw _)
    _ = w ^ (m - 1 - k + m) * A := by ring
    _ = w ^ (2 * m - 1 - k) * A := by rw [show m - 1 - k + m = 2 * m - 1 - k by omega]

/-- for a function with 2m derivatives, given that the terms at the ends cancel -/
theorem err_smooth {p : PwPoly ℝ ℝ} {m : ℕ} (hp : WF p) (hl : 2 ≤ p.xk.length) (hlm : m ≤ p.xk.length) (hm1 : 1 ≤ m) (hn : p.n ≤ 2 * m)
    (hm : ∀ j, 0 < j → j + 1 < p.xk.length → ∀ k, k + 2 ≤ 2 * m → MatchAt p k j) {F : ℕ → ℝ → ℝ}
    (hF : Derivs (2 * m) F (p.xk.getD 0 0) (p.xk.getD (p.xk.length - 1) 0))
    (hFi : IntervalIntegrable (F (2 * m)) volume (p.xk.getD 0 0) (p.xk.getD (p.xk.length - 1) 0))
    (hi : ∀ j < p.xk.length, F 0 (p.xk.getD j 0) = inside p 0 (p.xk.getD j 0))
    (hend : parts2 m (fun k t => F k t - pieceDeriv p (p.xk.length - 1) t k) (p.xk.getD (p.xk.length - 1) 0) =
      parts2 m (fun k t => F k t - pieceDeriv p 1 t k) (p.xk.getD 0 0)) {h : ℝ}
    (hh : ∀ i, i + 1 < p.xk.length → p.xk.getD (i + 1) 0 - p.xk.getD i 0 ≤ h) :
    ∀ k < m, ∀ t ∈ Icc (p.xk.getD 0 0) (p.xk.getD (p.xk.length - 1) 0), |F k t - inside p k t| ≤
      ((max m 2 - 1 : ℕ) * h) ^ (2 * m - 1 - k) * ∫ r in (p.xk.getD 0 0)..(p.xk.getD (p.xk.length - 1) 0), |F (2 * m) r| := by
  have hle0 : p.xk.getD 0 0 ≤ p.xk.getD (p.xk.length - 1) 0 := sorted_le hp.inc (Nat.zero_le _) (by omega)
  have hFS : SquareIntegrable m F (p.xk.getD 0 0) (p.xk.getD (p.xk.length - 1) 0) := by
    refine ⟨fun k hk => hF.cont k (by omega), fun k hk x hx => hF.deriv k (by omega) x hx, ⟨∅, Set.countable_empty, fun x hx => ?_⟩, ?_⟩
    · have := hF.deriv (m - 1) (by omega) x hx.1
      rwa [Nat.sub_add_cancel hm1] at this
    · have hc := hF.cont m (by omega)
      have hi1 : Integrable (F m) (volume.restrict (Icc (p.xk.getD 0 0) (p.xk.getD (p.xk.length - 1) 0))) := hc.integrableOn_Icc
      exact (memLp_two_iff_integrable_sq hi1.aestronglyMeasurable).2 ((hc.pow 2).integrableOn_Icc)
  have hH := inside_squareIntegrable hp hl hm1 fun j h1 h2 k hk => hm j h1 h2 k (by omega)
  have he := hFS.sub hH
  have hh0 : 0 ≤ h := by
    have h1 := hh 0 (by omega)
    have h2 : p.xk.getD 0 0 < p.xk.getD (0 + 1) 0 := sorted_lt hp.inc (by omega) (by omega)
    linarith
  have hb := err_knots hm1 hp.inc hl hlm he (fun j hj => by rw [hi j hj]; ring) hh
  refine second_relation (m := m) (e := fun k t => F k t - inside p k t) (mul_nonneg (Nat.cast_nonneg _) hh0)
    (intervalIntegral.integral_nonneg hle0 fun r _ => abs_nonneg _) hFi hle0 le_rfl (he.cont 0 (by omega)) ?_ hm1 hb
  -- the relation, interval by interval
  have hlt : ∀ i < p.xk.length - 1, p.xk.getD i 0 < p.xk.getD (i + 1) 0 := fun i h => sorted_lt hp.inc (by omega) (by omega)
  have hFm : ∀ i < p.xk.length - 1, Derivs (2 * m) (fun k t => F k t - pieceDeriv p (i + 1) t k) (p.xk.getD i 0) (p.xk.getD (i + 1) 0) := by
    intro i hi'
    have := hF.mono (sorted_le hp.inc (Nat.zero_le i) (by omega)) (sorted_le hp.inc (show i + 1 ≤ p.xk.length - 1 by omega) (by omega))
    exact ⟨fun k hk => (this.cont k hk).sub (pieceDeriv_continuous p (i + 1) k).continuousOn,
      fun k hk x hx => (this.deriv k hk x hx).sub (pieceDeriv_hasDerivAt p (i + 1) x k)⟩
  have hQ0 : ∀ i < p.xk.length - 1, ∀ t, pieceDeriv p (i + 1) t (2 * m) = 0 := by
    intro i hi' t
    unfold pieceDeriv
    refine PwPoly.polyDeriv_eq_zero _ _ _ ?_
    have hlen : i + 1 < p.c.length := by rw [hp.len]; omega
    unfold piece
    rw [List.getD_eq_getElem _ _ hlen, hp.row _ (List.getElem_mem hlen)]
    exact hn
  have hFi' : ∀ i < p.xk.length - 1, IntervalIntegrable (F (2 * m)) volume (p.xk.getD i 0) (p.xk.getD (i + 1) 0) := by
    intro i hi'
    refine hFi.mono_set ?_
    rw [uIcc_of_le (hlt i hi').le, uIcc_of_le hle0]
    exact Icc_subset_Icc (sorted_le hp.inc (Nat.zero_le i) (by omega)) (sorted_le hp.inc (by omega) (by omega))
  have hins : ∀ i < p.xk.length - 1, inside p 0 (p.xk.getD i 0) = pieceDeriv p (i + 1) (p.xk.getD i 0) 0 ∧
      inside p 0 (p.xk.getD (i + 1) 0) = pieceDeriv p (i + 1) (p.xk.getD (i + 1) 0) 0 := by
    intro i hi'
    refine ⟨?_, inside_Ioc hp (by omega) ⟨hlt i hi', le_rfl⟩⟩
    rcases Nat.eq_zero_or_pos i with rfl | h0
    · unfold inside
      rw [if_pos le_rfl]
    · obtain ⟨j, rfl⟩ : ∃ j, i = j + 1 := ⟨i - 1, by omega⟩
      rw [inside_Ioc hp (by omega) ⟨hlt j (by omega), le_rfl⟩]
      exact hm (j + 1) (by omega) (by omega) 0 (by omega)
  have hsum := parts2_sum (m := m) (N := p.xk.length - 1) (E := fun i k t => F k t - pieceDeriv p (i + 1) t k) (a := fun i => p.xk.getD i 0)
    (fun i h k hk => by
      have := hm (i + 1) (by omega) (by omega) k hk
      unfold MatchAt at this
      simp only [this])
    (fun i h => by
      have h1 := hins i h
      simp only [hi i (by omega), hi (i + 1) (by omega), h1.1, h1.2, sub_self, and_self]) (by omega)
  simp only [show p.xk.length - 1 - 1 + 1 = p.xk.length - 1 by omega, Nat.zero_add] at hsum
  rw [hend, sub_self] at hsum
  have hpart : ∀ i ∈ range (p.xk.length - 1), parts2 m (fun k t => F k t - pieceDeriv p (i + 1) t k) (p.xk.getD (i + 1) 0) -
      parts2 m (fun k t => F k t - pieceDeriv p (i + 1) t k) (p.xk.getD i 0) =
      ∫ t in (p.xk.getD i 0)..(p.xk.getD (i + 1) 0), ((F m t - inside p m t) ^ 2 - (-1) ^ m * (F (2 * m) t * (F 0 t - inside p 0 t))) := by
    intro i hi'
    have hi' := Finset.mem_range.1 hi'
    rw [← parts2_integral hm1 (hlt i hi').le (hFm i hi') (by
      have e : (fun t => F (2 * m) t - pieceDeriv p (i + 1) t (2 * m)) = F (2 * m) := by
        funext t
        rw [hQ0 i hi' t, sub_zero]
      rw [e]
      exact hFi' i hi')]
    refine integral_Ioc_congr (hlt i hi').le fun t ht => ?_
    simp only [inside_Ioc hp (show i + 1 < p.xk.length by omega) ht, hQ0 i hi' t, sub_zero]
  rw [Finset.sum_congr rfl hpart] at hsum
  have hi2 := (memLp_intervalIntegrable hle0 he.sq).2
  have hi3 : IntervalIntegrable (fun t => F (2 * m) t * (F 0 t - inside p 0 t)) volume (p.xk.getD 0 0) (p.xk.getD (p.xk.length - 1) 0) := by
    refine hFi.mul_continuousOn ?_
    rw [uIcc_of_le hle0]
    exact he.cont 0 (by omega)
  have hall : IntervalIntegrable (fun t => (F m t - inside p m t) ^ 2 - (-1) ^ m * (F (2 * m) t * (F 0 t - inside p 0 t))) volume
      (p.xk.getD 0 0) (p.xk.getD (p.xk.length - 1) 0) := hi2.sub (hi3.const_mul _)
  rw [intervalIntegral.sum_integral_adjacent_intervals (a := fun i => p.xk.getD i 0) fun i hi' => hall.mono_set (by
    rw [uIcc_of_le (hlt i hi').le, uIcc_of_le hle0]
    exact Icc_subset_Icc (sorted_le hp.inc (Nat.zero_le i) (by omega)) (sorted_le hp.inc (by omega) (by omega))),
    intervalIntegral.integral_sub hi2 (hi3.const_mul _), intervalIntegral.integral_const_mul] at hsum
  linarith

end Npplus
