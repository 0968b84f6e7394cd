import Verif.Lemmas.SplineCyc
import Mathlib.NumberTheory.BernoulliPolynomials
import Mathlib.LinearAlgebra.Matrix.ToLinearEquiv

/-!
# Even degree, an even number of intervals: the periodic problem has a nontrivial solution

The solution is a combination of the shifted periodic Bernoulli polynomials of degree `n+1`: these are odd functions, so
that the matrix of their values at the knots is antisymmetric.
-/

set_option linter.unusedSectionVars false

namespace Npplus.Spl

open Spec Finset PwPoly Polynomial

variable {K : Type} [Field K] [LinearOrder K] [IsStrictOrderedRing K] {n : ℕ} {x : List K}

theorem antisymm_kernel {N : ℕ} (hN : Even N) {G : ℕ → ℕ → K} (hG : ∀ i < N, ∀ j < N, G i j = -G j i) :
    ∃ (α : ℕ → K) (c : K), (c ≠ 0 ∨ ∃ i < N, α i ≠ 0) ∧ ∑ i ∈ range N, α i = 0 ∧ ∀ j < N, c + ∑ i ∈ range N, G j i * α i = 0 := by
  let A : Matrix (Option (Fin N)) (Option (Fin N)) K := fun r s => match r, s with
    | some i, some j => G i j
    | some _, none => 1
    | none, some _ => -1
    | none, none => 0
  have hA : A.transpose = -A := by
    funext r s
    cases r with
    | none =>
      cases s with
      | none => change (0 : K) = -0; rw [neg_zero]
      | some j => change (1 : K) = -(-1); rw [neg_neg]
    | some i =>
      cases s with
      | none => rfl
      | some j =>
        change G j i = -G i j
        exact hG _ j.2 _ i.2
  have hdet : A.det = 0 := by
    have h1 := A.det_transpose
    rw [hA, Matrix.det_neg, Fintype.card_option, Fintype.card_fin, Odd.neg_one_pow hN.add_one] at h1
    linarith
  obtain ⟨v, hv0, hv⟩ := Matrix.exists_mulVec_eq_zero_iff.mpr hdet
  set α : ℕ → K := fun i => if h : i < N then v (some ⟨i, h⟩) else 0 with hα
  have hαi : ∀ i : Fin N, α i = v (some i) := by intro i; simp [hα]
  refine ⟨α, v none, ?_, ?_, fun j hj => ?_⟩
  · by_contra h
    push Not at h
    apply hv0
    funext r
    cases r with
    | none => exact h.1
    | some i => rw [← hαi]; exact h.2 i i.2
  · have := congrFun hv none
    simp only [Matrix.mulVec, dotProduct, Fintype.sum_option, Pi.zero_apply] at this
    simp only [A, zero_mul, zero_add, neg_one_mul, sum_neg_distrib, neg_eq_zero] at this
    rw [sum_range, ← this]
    exact sum_congr rfl fun i _ => hαi i
  · have := congrFun hv (some ⟨j, hj⟩)
    simp only [Matrix.mulVec, dotProduct, Fintype.sum_option, Pi.zero_apply] at this
    simp only [A, one_mul] at this
    rw [sum_range, ← this]
    congr 1
    exact sum_congr rfl fun i _ => by rw [hαi]

/-- The Bernoulli polynomial of degree `n+1` over `K`. -/
noncomputable def bern (K : Type) [Field K] [CharZero K] (n : ℕ) : K[X] := (Polynomial.bernoulli (n + 1)).map (algebraMap ℚ K)

theorem bern_add (n : ℕ) : (bern K n).comp (1 + X) = bern K n + C ((n : K) + 1) * X ^ n := by
  have := congrArg (Polynomial.map (algebraMap ℚ K)) (Polynomial.bernoulli_comp_one_add_X (n + 1))
  rw [Polynomial.map_comp] at this
  simp only [Polynomial.map_add, Polynomial.map_one, Polynomial.map_X, nsmul_eq_mul, Polynomial.map_mul, Polynomial.map_natCast,
    Polynomial.map_pow, Nat.add_sub_cancel] at this
  unfold bern
  rw [this]
  simp

theorem bern_sub (n : ℕ) : (bern K n).comp (1 - X) = (-1) ^ (n + 1) * bern K n := by
  have := congrArg (Polynomial.map (algebraMap ℚ K)) (Polynomial.bernoulli_comp_one_sub_X (n + 1))
  rw [Polynomial.map_comp] at this
  simp only [Polynomial.map_sub, Polynomial.map_one, Polynomial.map_X, Polynomial.map_mul, Polynomial.map_pow, Polynomial.map_neg] at this
  exact this

theorem bern_eval_add (n : ℕ) (t : K) : (bern K n).eval (1 + t) = (bern K n).eval t + (n + 1) * t ^ n := by
  have := congrArg (Polynomial.eval t) (bern_add (K := K) n)
  simpa [eval_comp] using this

theorem bern_eval_sub (n : ℕ) (t : K) : (bern K n).eval (1 - t) = (-1) ^ (n + 1) * (bern K n).eval t := by
  have := congrArg (Polynomial.eval t) (bern_sub (K := K) n)
  simpa [eval_comp] using this

theorem bern_zero {n : ℕ} (hn : Even n) (hn0 : n ≠ 0) : (bern K n).eval 0 = 0 := by
  have h1 := bern_eval_add (K := K) n 0
  have h2 := bern_eval_sub (K := K) n 0
  rw [zero_pow hn0, mul_zero, add_zero, add_zero] at h1
  rw [sub_zero, Odd.neg_one_pow hn.add_one, h1] at h2
  linarith

theorem bern_degree (n : ℕ) : (bern K n).natDegree ≤ n + 1 := by
  unfold bern
  refine natDegree_map_le.trans ?_
  rw [natDegree_le_iff_coeff_eq_zero]
  intro k hk
  rw [coeff_bernoulli, if_neg (by omega)]

theorem bern_lead (n : ℕ) : (bern K n).coeff (n + 1) = 1 := by
  unfold bern
  rw [coeff_map, coeff_bernoulli, if_pos le_rfl]
  simp

/-- `(X - a)/P` -/
noncomputable def us (P a : K) : K[X] := C P⁻¹ * (X - C a)

theorem us_degree (P a : K) : (us P a).natDegree ≤ 1 := by
  unfold us
  exact (natDegree_C_mul_le _ _).trans (natDegree_X_sub_C_le a)

theorem us_eval (P a t : K) : (us P a).eval t = (t - a) / P := by
  simp [us, div_eq_inv_mul]

theorem taylor_us (P a r : K) : taylor r (us P a) = us P (a - r) := by
  unfold us
  rw [taylor_mul, taylor_C, map_sub, taylor_X, taylor_C, map_sub]
  ring

theorem us_zero (P : K) : us P 0 = C P⁻¹ * X := by simp [us]

theorem comp_us_coeff (P a : K) (n : ℕ) : ((bern K n).comp (us P a)).coeff (n + 1) = P⁻¹ ^ (n + 1) := by
  have h1 : us P a = C P⁻¹ * X + C (-P⁻¹ * a) := by unfold us; simp only [map_mul, map_neg]; ring
  have hd : natDegree (bern K n) = n + 1 := le_antisymm (bern_degree n)
    (le_natDegree_of_ne_zero (by rw [bern_lead]; exact one_ne_zero))
  rcases eq_or_ne P 0 with hP | hP
  · subst hP
    rw [h1]
    simp only [inv_zero, map_zero, zero_mul, neg_zero, add_zero, comp_zero, coeff_C]
    simp
  · have hP' := inv_ne_zero hP
    have e : (us P a).natDegree = 1 := by
      rw [h1]; exact natDegree_linear hP'
    have el : (us P a).leadingCoeff = P⁻¹ := by
      rw [h1]; exact leadingCoeff_linear hP'
    have := coeff_comp_degree_mul_degree (p := bern K n) (q := us P a) (by rw [e]; exact one_ne_zero)
    rw [e, el, hd, mul_one] at this
    rw [this, leadingCoeff, hd, bern_lead, one_mul]

theorem comp_us_degree (P a : K) (n : ℕ) : ((bern K n).comp (us P a)).natDegree ≤ n + 1 := by
  refine natDegree_comp_le.trans ?_
  have h1 := bern_degree (K := K) n
  have h2 := us_degree P a
  calc _ ≤ (n + 1) * 1 := Nat.mul_le_mul h1 h2
    _ = n + 1 := by ring

/-- **Even degree and an even number of intervals**: a nontrivial solution. -/
theorem cyc_nontrivial (hn : Even n) (hn0 : n ≠ 0) (hx : 2 ≤ x.length) (hs : x.Pairwise (· < ·)) (hN : Even (x.length - 1)) :
    ∃ z : ℕ → K, Sys n x ([] : List K) z ∧ Wrap n x z ∧ ∃ i < (x.length - 1) * n, z i ≠ 0 := by
  set N := x.length - 1 with hNdef
  set t : ℕ → K := fun j => x.getD j 0 with ht
  set P := t N - t 0 with hPdef
  have htw : ∀ j, t (j + 1) = t j + width x j := by intro j; simp only [ht, width]; ring
  have hP : P ≠ 0 := by
    have : ∀ j, j < N → t 0 < t (j + 1) := by
      intro j
      induction j with
      | zero => intro hj; rw [htw]; have := width_pos hs (show 0 + 1 < x.length by omega); linarith
      | succ j ih => intro hj; rw [htw]; have := width_pos hs (show j + 1 + 1 < x.length by omega); have := ih (by omega); linarith
    have h1 := this (N - 1) (by omega)
    rw [show N - 1 + 1 = N by omega] at h1
    exact (sub_pos.2 h1).ne'
  -- the weights
  set G : ℕ → ℕ → K := fun j i => if i ≤ j then (bern K n).eval ((t j - t i) / P) else (bern K n).eval (1 + (t j - t i) / P) with hG
  have hGa : ∀ i < N, ∀ j < N, G i j = -G j i := by
    have key : ∀ i j, i < j → G i j = -G j i := by
      intro i j hij
      simp only [hG]
      rw [if_neg (by omega), if_pos (by omega), show 1 + (t i - t j) / P = 1 - (t j - t i) / P by ring, bern_eval_sub,
        Odd.neg_one_pow hn.add_one, neg_one_mul]
    intro i _ j _
    rcases lt_trichotomy i j with h | h | h
    · exact key i j h
    · subst h
      simp only [hG]
      rw [if_pos le_rfl, sub_self, zero_div, bern_zero hn hn0, neg_zero]
    · rw [key j i h, neg_neg]
  obtain ⟨α, c, hne, hsum, hker⟩ := antisymm_kernel hN hGa
  -- the pieces
  set S : ℕ → K[X] := fun j => C c + ∑ i ∈ range N, C (α i) *
    ((bern K n).comp (us P (t i)) + if j < i then C ((n : K) + 1) * us P (t i) ^ n else 0) with hS
  have hdeg : ∀ j, (S j).natDegree ≤ n := by
    intro j
    have h1 : (S j).natDegree ≤ n + 1 := by
      refine (natDegree_add_le _ _).trans (max_le (by simp) ?_)
      refine natDegree_sum_le_of_forall_le _ _ fun i _ => (natDegree_C_mul_le _ _).trans ?_
      refine (natDegree_add_le _ _).trans (max_le (comp_us_degree _ _ _) ?_)
      split_ifs
      · refine (natDegree_C_mul_le _ _).trans ((natDegree_pow_le).trans ?_)
        have := us_degree P (t i)
        calc n * _ ≤ n * 1 := Nat.mul_le_mul_left n this
          _ ≤ n + 1 := by omega
      · simp
    have h2 : (S j).coeff (n + 1) = 0 := by
      simp only [hS]
      rw [coeff_add, coeff_C, if_neg (by omega), zero_add, finsetSum_coeff]
      have : ∀ i ∈ range N, (C (α i) * ((bern K n).comp (us P (t i)) + if j < i then C ((n : K) + 1) * us P (t i) ^ n else 0)).coeff (n + 1) =
          α i * P⁻¹ ^ (n + 1) := by
        intro i _
        rw [coeff_C_mul, coeff_add, comp_us_coeff]
        have h3 : (if j < i then C ((n : K) + 1) * us P (t i) ^ n else 0).coeff (n + 1) = 0 := by
          split_ifs
          · rw [coeff_C_mul, coeff_eq_zero_of_natDegree_lt, mul_zero]
            refine lt_of_le_of_lt natDegree_pow_le ?_
            have := us_degree P (t i)
            calc n * _ ≤ n * 1 := Nat.mul_le_mul_left n this
              _ < n + 1 := by omega
          · simp
        rw [h3, add_zero]
      rw [sum_congr rfl this, ← sum_mul, hsum, zero_mul]
    rw [natDegree_le_iff_coeff_eq_zero]
    intro k hk
    rcases Nat.eq_or_lt_of_le (show n + 1 ≤ k by omega) with h3 | h3
    · rw [← h3]; exact h2
    · exact coeff_eq_zero_of_natDegree_lt (by omega)
  have hval : ∀ j < N, (S j).eval (t j) = 0 := by
    intro j hj
    rw [← hker j hj]
    simp only [hS, hG]
    rw [eval_add, eval_C, eval_finsetSum]
    congr 1
    refine sum_congr rfl fun i _ => ?_
    rw [eval_mul, eval_C, eval_add, eval_comp, us_eval]
    by_cases h : i ≤ j
    · rw [if_neg (by omega), if_pos h, eval_zero, add_zero, mul_comm]
    · rw [if_pos (by omega), if_neg h, bern_eval_add]
      simp [us_eval]; ring
  have hstep : ∀ j, j + 1 < N → S j = S (j + 1) + C (α (j + 1) * (n + 1)) * us P (t (j + 1)) ^ n := by
    intro j hj
    have e : C (α (j + 1) * ((n : K) + 1)) * us P (t (j + 1)) ^ n =
        ∑ i ∈ range N, if i = j + 1 then C (α i) * (C ((n : K) + 1) * us P (t i) ^ n) else 0 := by
      rw [sum_ite_eq', if_pos (mem_range.2 hj), map_mul, mul_assoc]
    simp only [hS]
    rw [e, add_assoc, ← sum_add_distrib]
    congr 1
    refine sum_congr rfl fun i _ => ?_
    rcases lt_trichotomy i (j + 1) with h | h | h
    · rw [if_neg (by omega), if_neg (by omega), if_neg (by omega)]; ring
    · rw [if_pos (by omega), if_neg (by omega), if_pos h]; ring
    · rw [if_pos (by omega), if_pos (by omega), if_neg (by omega)]; ring
  have hwrap : taylor P (S (N - 1)) = S 0 + C (α 0 * (n + 1)) * us P (t 0) ^ n := by
    have e : C (α 0 * ((n : K) + 1)) * us P (t 0) ^ n =
        ∑ i ∈ range N, if i = 0 then C (α i) * (C ((n : K) + 1) * us P (t i) ^ n) else 0 := by
      rw [sum_ite_eq', if_pos (mem_range.2 (by omega)), map_mul, mul_assoc]
    simp only [hS]
    rw [e, add_assoc, ← sum_add_distrib, map_add, taylor_C, map_sum]
    congr 1
    refine sum_congr rfl fun i hi => ?_
    rw [mem_range] at hi
    have h1 : taylor P ((bern K n).comp (us P (t i))) = (bern K n).comp (us P (t i)) + C ((n : K) + 1) * us P (t i) ^ n := by
      have h2 : (us P (t i)).comp (X + C P) = 1 + us P (t i) := by
        have : C P⁻¹ * C P = (1 : K[X]) := by rw [← C_mul, inv_mul_cancel₀ hP, C_1]
        unfold us
        simp only [mul_comp, C_comp, sub_comp, X_comp]
        linear_combination this
      have h3 := congrArg (fun p => p.comp (us P (t i))) (bern_add (K := K) n)
      simp only [comp_assoc, add_comp, one_comp, X_comp, mul_comp, C_comp, pow_comp] at h3
      rw [taylor_apply, comp_assoc, h2, h3]
    rw [if_neg (by omega), add_zero, taylor_mul, taylor_C, h1]
    rcases Nat.eq_zero_or_pos i with h | h
    · rw [if_neg (by omega), if_pos h]; ring
    · rw [if_pos h, if_neg (by omega)]; ring
  -- derivatives at the knots
  have hus : ∀ r, taylor r (us P r ^ n) = C (P⁻¹ ^ n) * X ^ n := by
    intro r
    rw [taylor_pow, taylor_us, sub_self, us_zero, mul_pow, C_pow]
  have hnext : ∀ j, j + 1 < N → ∀ m < n, (taylor (t (j + 1)) (S j)).coeff m = (taylor (t (j + 1)) (S (j + 1))).coeff m := by
    intro j hj m hm
    rw [hstep j hj, map_add, taylor_mul, hus, coeff_add, taylor_C, coeff_C_mul, coeff_C_mul, coeff_X_pow, if_neg (by omega)]
    simp
  have hcorner : ∀ m < n, (taylor (t N) (S (N - 1))).coeff m = (taylor (t 0) (S 0)).coeff m := by
    intro m hm
    have h1 : taylor (t N) (S (N - 1)) = taylor (t 0) (taylor P (S (N - 1))) := by
      rw [taylor_taylor, hPdef]; congr 2; ring
    rw [h1, hwrap, map_add, taylor_mul, hus, coeff_add, taylor_C, coeff_C_mul, coeff_C_mul, coeff_X_pow, if_neg (by omega)]
    simp
  have hval1 : ∀ j < N, (S j).eval (t (j + 1)) = 0 := by
    intro j hj
    have e0 : ∀ p : K[X], ∀ r, (taylor r p).coeff 0 = p.eval r := fun p r => by rw [taylor_coeff_zero]
    rcases Nat.lt_or_ge (j + 1) N with h | h
    · rw [← e0, hnext j h 0 (by omega), e0]; exact hval _ h
    · have h1 := hcorner 0 (by omega)
      rw [e0, e0, hval 0 (by omega)] at h1
      rw [show j = N - 1 by omega, show N - 1 + 1 = N by omega]; exact h1
  -- the solution
  have hnpos : 0 < n := by omega
  set z : ℕ → K := fun i => taylorCoeff (lcoef n (S (i / n))) (t (i / n)) (i % n + 1) * width x (i / n) ^ (i % n + 1) with hz
  have hzq : ∀ j q, q < n → z (j * n + q) = taylorCoeff (lcoef n (S j)) (t j) (q + 1) * width x j ^ (q + 1) := by
    intro j q hq
    simp only [hz]
    rw [Nat.mul_comm, Nat.mul_add_div hnpos, Nat.mul_add_mod, Nat.div_eq_of_lt hq, Nat.mod_eq_of_lt hq, Nat.add_zero]
  have hright : ∀ j m, 1 ≤ m → ∑ q ∈ range n, ((q + 1).choose m : K) • z (j * n + q) = width x j ^ m * (taylor (t (j + 1)) (S j)).coeff m := by
    intro j m hm
    have e := sum_taylor_taylor (lcoef n (S j)) (t j) (width x j) m (n + 1) (by rw [lcoef_length])
    rw [sum_range_succ', Nat.choose_eq_zero_of_lt (by omega), Nat.cast_zero, zero_mul, zero_smul, add_zero, ← htw, taylor_lcoef (hdeg j)] at e
    rw [← e, mul_sum]
    refine sum_congr rfl fun q hq => ?_
    rw [mem_range] at hq
    rw [hzq j q hq, smul_eq_mul, smul_eq_mul]
    rcases Nat.lt_or_ge (q + 1) m with h4 | h4
    · rw [Nat.choose_eq_zero_of_lt h4]; simp
    · obtain ⟨r, hr⟩ : ∃ r, q + 1 = m + r := ⟨q + 1 - m, by omega⟩
      rw [hr, Nat.add_sub_cancel_left, pow_add]; ring
  have hpv : ∀ j r, polyVal (lcoef n (S j)) r = (S j).eval r := by
    intro j r
    rw [← lpoly_eval, lpoly_lcoef (hdeg j)]
  refine ⟨z, ⟨fun j hj => ?_, fun j hj m hm hmn => ?_⟩, fun m hm hmn => ?_, ?_⟩
  · have e := sum_taylor_taylor (lcoef n (S j)) (t j) (width x j) 0 (n + 1) (by rw [lcoef_length])
    rw [sum_range_succ', ← htw, taylorCoeff_zero, taylorCoeff_zero, hpv, hpv, hval1 j hj, hval j hj] at e
    simp only [List.getD_nil, sub_self]
    rw [← e, smul_zero, add_zero]
    refine sum_congr rfl fun q hq => ?_
    rw [mem_range] at hq
    rw [hzq j q hq, smul_eq_mul]; simp; ring
  · rw [hright j m hm, hzq _ _ (by omega), show m - 1 + 1 = m by omega, smul_eq_mul, div_pow, taylor_lcoef (hdeg _), hnext j hj m hmn]
    have := pow_ne_zero m (width_ne hs (show j + 1 + 1 < x.length by omega))
    field_simp
  · have h0 := hzq 0 (m - 1) (by omega)
    rw [Nat.zero_mul, Nat.zero_add, show m - 1 + 1 = m by omega, taylor_lcoef (hdeg _)] at h0
    rw [show x.length - 2 = N - 1 by omega, hright _ m hm, show N - 1 + 1 = N by omega, hcorner m hmn, h0, smul_eq_mul, div_pow]
    have := pow_ne_zero m (width_ne hs (show 0 + 1 < x.length by omega))
    field_simp
  · by_contra hc
    push Not at hc
    have hS0 : ∀ j < N, S j = 0 := by
      intro j hj
      have : taylor (t j) (S j) = 0 := by
        ext k
        rw [coeff_zero]
        rcases Nat.eq_zero_or_pos k with h | h
        · subst h; rw [taylor_coeff_zero]; exact hval j hj
        · rcases Nat.lt_or_ge n k with h2 | h2
          · refine coeff_eq_zero_of_natDegree_lt ?_
            rw [natDegree_taylor]; have := hdeg j; omega
          · have h3 := hc (j * n + (k - 1)) (block_lt (by omega) hj)
            rw [hzq j (k - 1) (by omega), show k - 1 + 1 = k by omega, taylor_lcoef (hdeg j), mul_eq_zero] at h3
            exact h3.resolve_right (pow_ne_zero _ (width_ne hs (by omega)))
      exact (taylor_injective (t j)) (by rw [this, map_zero])
    have hus0 : ∀ r, us P r ^ n ≠ 0 := by
      intro r h
      have := hus r
      rw [h, map_zero] at this
      have h2 := congrArg (fun p => p.coeff n) this
      simp only [coeff_zero, coeff_C_mul, coeff_X_pow, if_true, mul_one] at h2
      exact pow_ne_zero n (inv_ne_zero hP) h2.symm
    have hn1 : ((n : K) + 1) ≠ 0 := by positivity
    have hα1 : ∀ j, j + 1 < N → α (j + 1) = 0 := by
      intro j hj
      have := hstep j hj
      rw [hS0 j (by omega), hS0 _ hj, zero_add] at this
      have := (mul_eq_zero.1 this.symm).resolve_right (hus0 _)
      rw [C_eq_zero, mul_eq_zero] at this
      exact this.resolve_right hn1
    have hα : ∀ i < N, α i = 0 := by
      intro i hi
      rcases Nat.eq_zero_or_pos i with h | h
      · subst h
        have := hwrap
        rw [hS0 (N - 1) (by omega), hS0 0 hi, zero_add, map_zero] at this
        have := (mul_eq_zero.1 this.symm).resolve_right (hus0 _)
        rw [C_eq_zero, mul_eq_zero] at this
        exact this.resolve_right hn1
      · have := hα1 (i - 1) (by omega)
        rwa [show i - 1 + 1 = i by omega] at this
    have hc0 : c = 0 := by
      have := hker 0 (by omega)
      rw [sum_eq_zero fun i hi => by rw [hα i (mem_range.1 hi), mul_zero], add_zero] at this
      exact this
    rcases hne with h | ⟨i, hi, h⟩
    · exact h hc0
    · exact h (hα i hi)

end Npplus.Spl
