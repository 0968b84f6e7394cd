import Verif.Spec.Smooth
import Mathlib.Analysis.Calculus.LocalExtr.Rolle
import Mathlib.Algebra.Polynomial.Derivative
import Mathlib.Algebra.Polynomial.FieldDivision
import Mathlib.Analysis.Calculus.Deriv.Polynomial

/-!
# The remainder of two-point Hermite interpolation
-/

set_option linter.unusedSectionVars false
namespace Npplus
open Spec Set Polynomial

theorem rolle_list {g g' : ℝ → ℝ} {a b : ℝ} (hc : ContinuousOn g (Icc a b)) (hd : ∀ x ∈ Ioo a b, HasDerivAt g (g' x) x) (l : List ℝ) :
    ∀ x0, (x0 :: l).Pairwise (· < ·) → (∀ y ∈ x0 :: l, y ∈ Icc a b ∧ g y = 0) →
      ∃ l' : List ℝ, l'.length = l.length ∧ l'.Pairwise (· < ·) ∧ ∀ y ∈ l', x0 < y ∧ y ∈ Ioo a b ∧ g' y = 0 := by
  induction l with
  | nil => exact fun x0 _ _ => ⟨[], rfl, List.Pairwise.nil, by simp⟩
  | cons x1 t ih =>
    intro x0 hp hz
    obtain ⟨h0, hp'⟩ := List.pairwise_cons.1 hp
    obtain ⟨l', e, hpl, hl⟩ := ih x1 hp' fun y hy => hz y (List.mem_cons_of_mem _ hy)
    have h01 : x0 < x1 := h0 x1 List.mem_cons_self
    have z0 := hz x0 List.mem_cons_self
    have z1 := hz x1 (List.mem_cons_of_mem _ List.mem_cons_self)
    have hsub : Icc x0 x1 ⊆ Icc a b := Icc_subset_Icc z0.1.1 z1.1.2
    have hin : Ioo x0 x1 ⊆ Ioo a b := Ioo_subset_Ioo z0.1.1 z1.1.2
    obtain ⟨c, hcm, hc0⟩ := exists_hasDerivAt_eq_zero h01 (hc.mono hsub) (z0.2.trans z1.2.symm) fun x hx => hd x (hin hx)
    refine ⟨c :: l', by simp [e], List.pairwise_cons.2 ⟨fun y hy => hcm.2.trans (hl y hy).1, hpl⟩, ?_⟩
    intro y hy
    rcases List.mem_cons.1 hy with rfl | hy
    · exact ⟨hcm.1, hin hcm, hc0⟩
    · exact ⟨h01.trans (hl y hy).1, (hl y hy).2⟩

/-- a function with `n`-fold zeros at both ends and a zero between them: its derivative of order `2n` has a zero -/
theorem rolle_two_point {n : ℕ} {G : ℕ → ℝ → ℝ} {a b x : ℝ} (hG : Derivs (2 * n) G a b) (ha : ∀ k < n, G k a = 0) (hb : ∀ k < n, G k b = 0)
    (hx : x ∈ Ioo a b) (h0 : G 0 x = 0) : ∃ ξ ∈ Ioo a b, G (2 * n) ξ = 0 := by
  have hab : a < b := hx.1.trans hx.2
  have s1 : ∀ k ≤ n, ∃ l : List ℝ, l.length = k + 1 ∧ l.Pairwise (· < ·) ∧ ∀ y ∈ l, y ∈ Ioo a b ∧ G k y = 0 := by
    intro k
    induction k with
    | zero => exact fun _ => ⟨[x], rfl, by simp, by simpa using ⟨hx, h0⟩⟩
    | succ k ih =>
      intro hk
      obtain ⟨l, e, hp, hl⟩ := ih (by omega)
      obtain ⟨l', e', hp', hl'⟩ := rolle_list (hG.cont k (by omega)) (hG.deriv k (by omega)) (l ++ [b]) a
        (by
          rw [List.pairwise_cons, List.pairwise_append]
          refine ⟨fun y hy => ?_, hp, by simp, fun y hy z hz => ?_⟩
          · rcases List.mem_append.1 hy with hy | hy
            · exact (hl y hy).1.1
            · rw [List.mem_singleton.1 hy]; exact hab
          · rw [List.mem_singleton.1 hz]; exact (hl y hy).1.2)
        (fun y hy => by
          rcases List.mem_cons.1 hy with rfl | hy
          · exact ⟨⟨le_rfl, hab.le⟩, ha k (by omega)⟩
          rcases List.mem_append.1 hy with hy | hy
          · exact ⟨Ioo_subset_Icc_self (hl y hy).1, (hl y hy).2⟩
          · rw [List.mem_singleton.1 hy]; exact ⟨⟨hab.le, le_rfl⟩, hb k (by omega)⟩)
      exact ⟨l', by rw [e', List.length_append, e]; rfl, hp', fun y hy => (hl' y hy).2⟩
  have s2 : ∀ m ≤ n, ∃ l : List ℝ, l.length = n + 1 - m ∧ l.Pairwise (· < ·) ∧ ∀ y ∈ l, y ∈ Ioo a b ∧ G (n + m) y = 0 := by
    intro m
    induction m with
    | zero => exact fun _ => s1 n le_rfl
    | succ m ih =>
      intro hm
      obtain ⟨l, e, hp, hl⟩ := ih (by omega)
      rcases l with _ | ⟨x0, t⟩
      · simp at e; omega
      · obtain ⟨l', e', hp', hl'⟩ := rolle_list (hG.cont (n + m) (by omega)) (hG.deriv (n + m) (by omega)) t x0 hp
          fun y hy => ⟨Ioo_subset_Icc_self (hl y hy).1, (hl y hy).2⟩
        refine ⟨l', ?_, hp', fun y hy => (hl' y hy).2⟩
        rw [e']
        simp only [List.length_cons] at e
        omega
  obtain ⟨l, e, _, hl⟩ := s2 n le_rfl
  rcases l with _ | ⟨ξ, t⟩
  · simp at e
  · have := hl ξ List.mem_cons_self
    rw [← two_mul] at this
    exact ⟨ξ, this.1, this.2⟩

/-- the polynomial with `n`-fold zeros at `a` and `b` -/
noncomputable def nodal (n : ℕ) (a b : ℝ) : ℝ[X] := ((X - C a) * (X - C b)) ^ n

theorem nodal_eval (n : ℕ) (a b x : ℝ) : (nodal n a b).eval x = ((x - a) * (x - b)) ^ n := by simp [nodal]

theorem nodal_zero {n k : ℕ} (hk : k < n) (a b : ℝ) {x : ℝ} (hx : x = a ∨ x = b) : (derivative^[k] (nodal n a b)).eval x = 0 := by
  obtain ⟨q, hq⟩ := pow_sub_dvd_iterate_derivative_pow ((X - C a) * (X - C b)) n k
  unfold nodal
  rw [hq, eval_mul, eval_pow]
  have : ((X - C a) * (X - C b) : ℝ[X]).eval x = 0 := by rcases hx with rfl | rfl <;> simp
  rw [this, zero_pow (by omega), zero_mul]

theorem nodal_top (n : ℕ) (a b x : ℝ) : (derivative^[2 * n] (nodal n a b)).eval x = (2 * n).factorial := by
  have hm : (nodal n a b).Monic := by unfold nodal; exact ((monic_X_sub_C a).mul (monic_X_sub_C b)).pow n
  have hdeg : (nodal n a b).natDegree = 2 * n := by
    unfold nodal
    rw [natDegree_pow, (monic_X_sub_C a).natDegree_mul (monic_X_sub_C b), natDegree_X_sub_C, natDegree_X_sub_C]
    ring
  have e : derivative^[2 * n] (nodal n a b) = C ((2 * n).factorial : ℝ) := by
    ext m
    rw [coeff_iterate_derivative, coeff_C]
    rcases Nat.eq_zero_or_pos m with rfl | h
    · rw [if_pos rfl, Nat.zero_add, Nat.descFactorial_self]
      have : (nodal n a b).coeff (2 * n) = 1 := by rw [← hdeg]; exact hm
      rw [this, nsmul_one]
    · rw [if_neg (by omega), coeff_eq_zero_of_natDegree_lt (by omega), smul_zero]
  rw [e, eval_C]

/-- The remainder formula: `P` (a polynomial of degree below `2n`, given by its derivatives) and `F` agree with their derivatives of
order below `n` at `a` and `b`. -/
theorem hermite_remainder {n : ℕ} {F P : ℕ → ℝ → ℝ} {a b x : ℝ} (hab : a < b) (hF : Derivs (2 * n) F a b)
    (hP : ∀ k t, HasDerivAt (P k) (P (k + 1) t) t) (hP0 : ∀ t, P (2 * n) t = 0) (ha : ∀ k < n, P k a = F k a) (hb : ∀ k < n, P k b = F k b)
    (hn : 1 ≤ n) (hx : x ∈ Icc a b) :
    ∃ ξ ∈ Ioo a b, F 0 x - P 0 x = F (2 * n) ξ / (2 * n).factorial * ((x - a) * (x - b)) ^ n := by
  by_cases hxe : x = a ∨ x = b
  · refine ⟨(a + b) / 2, ⟨by linarith, by linarith⟩, ?_⟩
    have h1 : F 0 x - P 0 x = 0 := by rcases hxe with rfl | rfl <;> [rw [ha 0 (by omega)]; rw [hb 0 (by omega)]] <;> exact sub_self _
    have h2 : (x - a) * (x - b) = 0 := by rcases hxe with rfl | rfl <;> simp
    rw [h1, h2, zero_pow (by omega), mul_zero]
  · push Not at hxe
    have hxo : x ∈ Ioo a b := ⟨lt_of_le_of_ne hx.1 (Ne.symm hxe.1), lt_of_le_of_ne hx.2 hxe.2⟩
    have hw : ((x - a) * (x - b)) ^ n ≠ 0 := pow_ne_zero _ (mul_ne_zero (sub_ne_zero.2 hxe.1) (sub_ne_zero.2 hxe.2))
    set c := (F 0 x - P 0 x) / ((x - a) * (x - b)) ^ n with hc
    have hWd : ∀ (k : ℕ) (t : ℝ), HasDerivAt (fun t => (derivative^[k] (nodal n a b)).eval t) ((derivative^[k + 1] (nodal n a b)).eval t) t := by
      intro k t
      rw [Function.iterate_succ_apply']
      exact (derivative^[k] (nodal n a b)).hasDerivAt t
    set G : ℕ → ℝ → ℝ := fun k t => F k t - P k t - c * (derivative^[k] (nodal n a b)).eval t with hG
    have hGd : Derivs (2 * n) G a b := by
      constructor
      · intro k hk
        refine ((hF.cont k hk).sub ?_).sub ?_
        · exact fun t _ => (hP k t).continuousAt.continuousWithinAt
        · exact fun t _ => ((hWd k t).const_mul c).continuousAt.continuousWithinAt
      · intro k hk t ht
        exact ((hF.deriv k hk t ht).sub (hP k t)).sub ((hWd k t).const_mul c)
    obtain ⟨ξ, hξ, h0⟩ := rolle_two_point hGd
      (fun k hk => by simp only [hG]; rw [ha k hk, nodal_zero hk a b (.inl rfl)]; ring)
      (fun k hk => by simp only [hG]; rw [hb k hk, nodal_zero hk a b (.inr rfl)]; ring)
      hxo (by
        simp only [hG, Function.iterate_zero, id]
        rw [nodal_eval, hc, div_mul_cancel₀ _ hw, sub_self])
    refine ⟨ξ, hξ, ?_⟩
    simp only [hG] at h0
    rw [hP0, nodal_top, sub_zero] at h0
    have hf : ((2 * n).factorial : ℝ) ≠ 0 := by exact_mod_cast (Nat.factorial_ne_zero _)
    have hcc : F (2 * n) ξ / (2 * n).factorial = c := by
      rw [div_eq_iff hf]
      linarith
    rw [hcc, hc, div_mul_cancel₀ _ hw]

theorem node_bound {a b x : ℝ} (hx : x ∈ Icc a b) (n : ℕ) : |((x - a) * (x - b)) ^ n| ≤ ((b - a) / 2) ^ (2 * n) := by
  rw [abs_pow, pow_mul]
  refine pow_le_pow_left₀ (abs_nonneg _) ?_ n
  have h1 := hx.1
  have h2 := hx.2
  rw [abs_le]
  constructor
  · nlinarith [sq_nonneg (x - (a + b) / 2)]
  · have : (x - a) * (x - b) ≤ 0 := mul_nonpos_of_nonneg_of_nonpos (by linarith) (by linarith)
    exact this.trans (sq_nonneg _)

end Npplus
