import Verif.Spec.Poly
import Mathlib.Data.List.GetD
import Mathlib.Algebra.Polynomial.Taylor
import Mathlib.Algebra.Polynomial.Roots
import Mathlib.Algebra.Polynomial.BigOperators

/-! Coefficient lists and Mathlib's polynomials. -/

namespace Npplus
open Spec Finset Polynomial

variable {K : Type} [Field K]

/-- Coefficient list of length `n+1`. -/
noncomputable def lcoef (n : ℕ) (P : K[X]) : List K := (List.range (n + 1)).map P.coeff

/-- The polynomial of a coefficient list. -/
noncomputable def lpoly (c : List K) : K[X] := ∑ i ∈ range c.length, Polynomial.monomial i (c.getD i 0)

theorem lcoef_length (n : ℕ) (P : K[X]) : (lcoef n P).length = n + 1 := by simp [lcoef]

theorem lcoef_getD {n : ℕ} {P : K[X]} (hP : P.natDegree ≤ n) (k : ℕ) : (lcoef n P).getD k 0 = P.coeff k := by
  rcases Nat.lt_or_ge k (n + 1) with h | h
  · rw [List.getD_eq_getElem _ _ (by rw [lcoef_length]; exact h)]; simp [lcoef]
  · rw [List.getD_eq_default _ _ (by rw [lcoef_length]; exact h), coeff_eq_zero_of_natDegree_lt (by omega)]

theorem lpoly_coeff (c : List K) (k : ℕ) : (lpoly c).coeff k = c.getD k 0 := by
  unfold lpoly
  rw [finsetSum_coeff]
  simp only [coeff_monomial]
  rw [Finset.sum_ite_eq']
  split
  · rfl
  · next h => rw [List.getD_eq_default _ _ (by simpa using h)]

theorem lpoly_degree {c : List K} {n : ℕ} (h : c.length ≤ n + 1) : (lpoly c).natDegree ≤ n :=
  natDegree_le_iff_coeff_eq_zero.mpr fun k hk => by rw [lpoly_coeff, List.getD_eq_default _ _ (by omega)]

theorem lpoly_eval (c : List K) (t : K) : (lpoly c).eval t = polyVal c t := by
  unfold lpoly polyVal
  rw [eval_finsetSum]
  exact sum_congr rfl fun i _ => by rw [eval_monomial, smul_eq_mul, mul_comm]

theorem taylor_lpoly (c : List K) (w : K) (k : ℕ) : (taylor w (lpoly c)).coeff k = taylorCoeff c w k := by
  rw [taylor_coeff]
  unfold lpoly taylorCoeff
  rw [map_sum, eval_finsetSum]
  refine sum_congr rfl fun i _ => ?_
  rw [hasseDeriv_monomial, eval_monomial, smul_eq_mul]
  ring

theorem lpoly_lcoef {n : ℕ} {P : K[X]} (hP : P.natDegree ≤ n) : lpoly (lcoef n P) = P := by
  ext k
  rw [lpoly_coeff, lcoef_getD hP]

theorem taylor_lcoef {n : ℕ} {P : K[X]} (hP : P.natDegree ≤ n) (w : K) (k : ℕ) :
    taylorCoeff (lcoef n P) w k = (taylor w P).coeff k := by
  rw [← taylor_lpoly, lpoly_lcoef hP]

theorem lpoly_eq_zero {c : List K} (h : lpoly c = 0) (k : ℕ) : c.getD k 0 = 0 := by
  rw [← lpoly_coeff, h, coeff_zero]

/-- Two point Hermite interpolation: `a` vanishing coefficients at 0, `b` given ones at `W`. -/
theorem hermite2 (n a : ℕ) {W : K} (hW : W ≠ 0) (h : ℕ → K) (b : ℕ) (hab : a + b ≤ n + 1) :
    ∃ P : K[X], P.natDegree ≤ n ∧ (∀ k < a, P.coeff k = 0) ∧ ∀ k < b, (taylor W P).coeff k = h k := by
  induction b with
  | zero => exact ⟨0, by simp, fun _ _ => coeff_zero _, fun k hk => by omega⟩
  | succ b ih =>
    obtain ⟨P, p1, p2, p3⟩ := ih (by omega)
    set Q : K[X] := X ^ a * (X - C W) ^ b with hQ
    have hdeg : Q.natDegree ≤ n := by
      refine (natDegree_mul_le).trans ?_
      rw [natDegree_X_pow]
      have := natDegree_pow_le (p := (X - C W : K[X])) (n := b)
      rw [natDegree_X_sub_C] at this
      omega
    have hq0 : ∀ k < a, Q.coeff k = 0 := by
      intro k hk
      rw [hQ, coeff_X_pow_mul', if_neg (by omega)]
    have htq : taylor W Q = X ^ b * (X + C W) ^ a := by
      rw [hQ, taylor_mul, taylor_X_pow, taylor_pow, map_sub, taylor_X, taylor_C, add_sub_cancel_right, mul_comm]
    have hqk : ∀ k < b, (taylor W Q).coeff k = 0 := by
      intro k hk
      rw [htq, coeff_X_pow_mul', if_neg (by omega)]
    have hqb : (taylor W Q).coeff b = W ^ a := by
      rw [htq, coeff_X_pow_mul', if_pos le_rfl, Nat.sub_self, coeff_zero_eq_eval_zero]
      simp
    have hWa := pow_ne_zero a hW
    refine ⟨P + C ((h b - (taylor W P).coeff b) / W ^ a) * Q, ?_, ?_, ?_⟩
    · refine (natDegree_add_le _ _).trans (max_le p1 ((natDegree_C_mul_le _ _).trans hdeg))
    · intro k hk
      rw [coeff_add, p2 k hk, coeff_C_mul, hq0 k hk, mul_zero, add_zero]
    · intro k hk
      rw [map_add, coeff_add, taylor_mul, taylor_C, coeff_C_mul]
      rcases (Nat.lt_succ_iff_lt_or_eq.mp hk) with hk | rfl
      · rw [hqk k hk, mul_zero, add_zero, p3 k hk]
      · rw [hqb, div_mul_cancel₀ _ hWa]; ring

/-- A polynomial of degree at most `n` with a zero of order `a` at 0 and `n+1-a` other zeros vanishes. -/
theorem zero_of_roots {n a : ℕ} (ha : a ≤ n + 1) {P : K[X]} (hP : P.natDegree ≤ n) (h0 : ∀ k < a, P.coeff k = 0) (T : Finset K)
    (hT : n + 1 - a ≤ T.card) (hT0 : a = 0 ∨ (0 : K) ∉ T) (hr : ∀ t ∈ T, P.eval t = 0) : P = 0 := by
  obtain ⟨Q, rfl⟩ := X_pow_dvd_iff.mpr h0
  by_contra hne
  have hQ : Q ≠ 0 := by rintro rfl; simp at hne
  have hd : (X ^ a * Q).natDegree = a + Q.natDegree := by
    rw [natDegree_mul (pow_ne_zero _ X_ne_zero) hQ, natDegree_X_pow]
  apply hQ
  refine eq_zero_of_natDegree_lt_card_of_eval_eq_zero' Q T ?_ (by omega)
  intro t ht
  have := hr t ht
  rw [eval_mul, eval_pow, eval_X] at this
  rcases mul_eq_zero.mp this with h | h
  · rcases hT0 with rfl | h0
    · simp at h
    · rcases Nat.eq_zero_or_pos a with rfl | hpos
      · simp at h
      · have := (pow_eq_zero_iff (by omega)).mp h
        subst this
        exact absurd ht h0
  · exact h

end Npplus
