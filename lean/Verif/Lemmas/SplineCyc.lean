import Verif.Lemmas.SplineHom
import Verif.Lemmas.PolyList
import Mathlib.Algebra.Polynomial.HasseDeriv
import Mathlib.Algebra.Polynomial.Derivative

/-!
# The homogeneous periodic spline problem
-/

set_option linter.unusedSectionVars false

namespace Npplus.Spl

open Spec Finset PwPoly SignVar SignType

variable {K : Type} [Field K] [LinearOrder K] [IsStrictOrderedRing K] {n : ℕ} {x : List K} {z : ℕ → K}

/-- The derivatives at the end of the period and at its beginning agree. -/
def Wrap (n : ℕ) (x : List K) (z : ℕ → K) : Prop := ∀ m, 1 ≤ m → m < n →
  ∑ q ∈ range n, ((q + 1).choose m : K) • z ((x.length - 2) * n + q) = (width x (x.length - 2) / width x 0) ^ m • z (m - 1)

theorem wrap_eq (hw : Wrap n x z) {k : ℕ} (hk : 1 ≤ k) (hkn : k < n) :
    bC n z (x.length - 2) k = (width x (x.length - 2) / width x 0) ^ k * aC n z 0 k := by
  rw [bC_eq, hw k hk hkn]
  unfold aC
  rw [if_neg (by omega), Nat.zero_mul, Nat.zero_add]; rfl

theorem wrap_sign (hx : 2 ≤ x.length) (hs : x.Pairwise (· < ·)) (hw : Wrap n x z) {k : ℕ} (hk : 1 ≤ k) (hkn : k < n) :
    sign (bC n z (x.length - 2) k) = sign (aC n z 0 k) := by
  rw [wrap_eq hw hk hkn, sign_mul, sign_pos, one_mul]
  exact pow_pos (div_pos (width_pos hs (by omega)) (width_pos hs (by omega))) k

theorem wrap_signs (hx : 2 ≤ x.length) (hs : x.Pairwise (· < ·)) (hw : Wrap n x z) :
    ((List.range (n - 1)).map fun i => bC n z (x.length - 2) (1 + i)).map sign = ((List.range (n - 1)).map fun i => aC n z 0 (1 + i)).map sign := by
  rw [List.map_map, List.map_map]
  apply List.map_congr_left
  intro i hi
  rw [List.mem_range] at hi
  exact wrap_sign hx hs hw (by omega) (by omega)

/-- **An odd number of intervals**: only the trivial solution, for every degree. -/
theorem cyc_odd (hn : 1 ≤ n) (hx : 2 ≤ x.length) (hs : x.Pairwise (· < ·)) (h : Sys n x ([] : List K) z) (hw : Wrap n x z)
    (hodd : Odd (x.length - 1)) : ∀ i < (x.length - 1) * n, z i = 0 := by
  by_contra hc
  have hne : ∃ i < (x.length - 1) * n, z i ≠ 0 := by
    by_contra h'
    exact hc fun i hi => by
      by_contra h0
      exact h' ⟨i, hi, h0⟩
  have hA := pieces_ne hn hs h hne
  have hB : ∀ j < x.length - 1, ld (lst n (bC n z j)) ≠ 0 := fun j hj => by rw [ld_piece]; exact hA j hj
  have hlast : x.length - 2 < x.length - 1 := by omega
  -- around the corner
  have hk0 := hB _ hlast
  rw [lst_zero hn (bC_zero h hlast)] at hk0
  have hk := knot (d' := aC n z 0 n) (wrap_signs hx hs hw) hk0
  rw [← lst_zero hn (bC_zero h hlast), ← lst_zero hn (aC_zero 0)] at hk
  have hch : ∀ j < x.length - 1, vp (lst n (bC n z j)) ≤ vm (lst n (aC n z 0)) := fun j hj => by
    have := chain hn hs h hne 0 j (by omega)
    rwa [Nat.zero_add] at this
  have hch2 : ∀ j < x.length - 1, vp (lst n (bC n z (x.length - 2))) ≤ vm (lst n (aC n z j)) := fun j hj => by
    have := chain hn hs h hne j (x.length - 2 - j) (by omega)
    rwa [show j + (x.length - 2 - j) = x.length - 2 by omega] at this
  have hld : ∀ j, j + 1 < x.length - 1 → ld (lst n (aC n z (j + 1))) = -ld (lst n (aC n z j)) := by
    intro j hj
    have hj0 := hB j (by omega)
    rw [lst_zero hn (bC_zero h (by omega))] at hj0
    have hkj := knot (d' := aC n z (j + 1) n) (signs_next hs h hj) hj0
    rw [← lst_zero hn (bC_zero h (by omega)), ← lst_zero hn (aC_zero _)] at hkj
    have := hkj.2 (le_antisymm hkj.1 (by have := hch j (by omega); have := hch2 (j + 1) hj; omega))
    rw [this, ld_piece]
  have hlast0 : ld (lst n (aC n z 0)) = -ld (lst n (aC n z (x.length - 2))) := by
    have := hk.2 (le_antisymm hk.1 (hch _ hlast))
    rw [this, ld_piece]
  have hall : ∀ i, 2 * i < x.length - 1 → ld (lst n (aC n z (2 * i))) = ld (lst n (aC n z 0)) := by
    intro i
    induction i with
    | zero => intro _; rfl
    | succ i ih =>
      intro hi
      rw [show 2 * (i + 1) = 2 * i + 1 + 1 by omega, hld _ (by omega), hld _ (by omega), neg_neg]
      exact ih (by omega)
  obtain ⟨r, hr⟩ := hodd
  have := hall r (by omega)
  rw [show x.length - 2 = 2 * r by omega, this] at hlast0
  have h0 := hA 0 (by omega)
  revert hlast0 h0
  generalize ld (lst n (aC n z 0)) = s
  revert s
  decide

/-- Periodic and smooth everywhere (the top coefficients vanish): trivial. -/
theorem cyc_smooth (hn : 1 ≤ n) (hx : 2 ≤ x.length) (hs : x.Pairwise (· < ·)) (h : Sys n x ([] : List K) z) (hw : Wrap n x z)
    (htop : ∀ j < x.length - 1, aC n z j n = 0) : ∀ i < (x.length - 1) * n, z i = 0 := by
  by_contra hc
  have hne : ∃ i < (x.length - 1) * n, z i ≠ 0 := by
    by_contra h'
    exact hc fun i hi => by
      by_contra h0
      exact h' ⟨i, hi, h0⟩
  have hA := pieces_ne hn hs h hne
  have hlast : x.length - 2 < x.length - 1 := by omega
  have hB : ld (lst n (bC n z (x.length - 2))) ≠ 0 := by rw [ld_piece]; exact hA _ hlast
  have hch := chain hn hs h hne 0 (x.length - 2) (by omega)
  rw [Nat.zero_add] at hch
  have : vm (lst n (aC n z 0)) + 1 ≤ vp (lst n (bC n z (x.length - 2))) := by
    rw [lst_zero hn (aC_zero _), lst_zero hn (bC_zero h hlast)]
    refine knot_smooth ?_ ?_
    · rw [List.map_append, List.map_append, wrap_signs hx hs hw]
      congr 1
      rw [bC_top hn, htop _ hlast, htop 0 (by omega)]
    · rw [lst_zero hn (bC_zero h hlast)] at hB
      rw [Ne, ld_eq_zero] at hB ⊢
      intro h'
      apply hB
      intro a ha
      rcases List.mem_cons.1 ha with h0 | h0
      · exact h0
      · exact h' a h0
  omega

/-! ### energy -/

open Polynomial in
/-- `∫₀¹` -/
noncomputable def integ : K[X] →ₗ[K] K := Polynomial.lsum fun k => (LinearMap.lsmul K K) ((k + 1 : K)⁻¹)

open Polynomial in
theorem integ_monomial (k : ℕ) (a : K) : integ (monomial k a) = a / (k + 1) := by
  unfold integ
  rw [lsum_apply, sum_monomial_index _ _ (by simp)]
  simp [div_eq_inv_mul]

open Polynomial in
theorem integ_derivative (F : K[X]) : integ (derivative F) = F.eval 1 - F.eval 0 := by
  induction F using Polynomial.induction_on' with
  | add p q hp hq => rw [derivative_add, map_add, hp, hq, eval_add, eval_add]; ring
  | monomial k a =>
    rw [derivative_monomial, integ_monomial, eval_monomial, eval_monomial]
    cases k with
    | zero => simp
    | succ k =>
      simp only [Nat.cast_add, Nat.cast_one, Nat.add_sub_cancel, one_pow, mul_one, ne_eq, Nat.add_eq_zero_iff, one_ne_zero, and_false,
        not_false_eq_true, zero_pow, mul_zero, sub_zero]
      have : (k : K) + 1 ≠ 0 := by positivity
      field_simp

/-- `∫₀¹ tⁱ P_k(t) dt` for the Legendre polynomials -/
def leg : ℕ → ℕ → K
  | 0, i => 1 / (i + 1)
  | k + 1, i => leg k i * (i - k) / (i + k + 2)

theorem leg_zero {k i : ℕ} (h : i < k) : leg k i = (0 : K) := by
  induction k with
  | zero => omega
  | succ k ih =>
    rcases Nat.lt_or_ge i k with h1 | h1
    · rw [leg, ih h1]; simp
    · obtain rfl : i = k := by omega
      rw [leg]; simp

theorem leg_ne {k i : ℕ} (h : k ≤ i) : leg k i ≠ (0 : K) := by
  induction k with
  | zero => rw [leg]; positivity
  | succ k ih =>
    rw [leg]
    have h1 : (i : K) - k ≠ 0 := by
      rw [sub_ne_zero]; exact_mod_cast (show i ≠ k by omega)
    have h2 : (i : K) + k + 2 ≠ 0 := by positivity
    exact div_ne_zero (mul_ne_zero (ih (by omega)) h1) h2

theorem leg_sum (i j : ℕ) (N : ℕ) : (i + j + 1 : K) * ∑ k ∈ range N, (2 * (k : K) + 1) * (leg k i * leg k j) =
    1 - (i + N + 1) * (j + N + 1) * (leg N i * leg N j) := by
  induction N with
  | zero =>
    have h1 : (i : K) + 1 ≠ 0 := by positivity
    have h2 : (j : K) + 1 ≠ 0 := by positivity
    simp only [range_zero, sum_empty, mul_zero, leg, Nat.cast_zero, add_zero]
    field_simp; ring
  | succ N ih =>
    rw [sum_range_succ, mul_add, ih, leg, leg]
    have h1 : (i : K) + N + 2 ≠ 0 := by positivity
    have h2 : (j : K) + N + 2 ≠ 0 := by positivity
    have h3 : (i : K) + (N + 1 : ℕ) + 1 = i + N + 2 := by push_cast; ring
    have h4 : (j : K) + (N + 1 : ℕ) + 1 = j + N + 2 := by push_cast; ring
    rw [h3, h4]
    field_simp
    ring

theorem hilbert {i j N : ℕ} (h : i < N) : (1 : K) / (i + j + 1) = ∑ k ∈ range N, (2 * (k : K) + 1) * (leg k i * leg k j) := by
  have := leg_sum (K := K) i j N
  rw [leg_zero h, zero_mul, mul_zero, sub_zero] at this
  have h1 : (i : K) + j + 1 ≠ 0 := by positivity
  rw [div_eq_iff h1, mul_comm]; exact this.symm

open Polynomial in
theorem integ_sq {q : K[X]} {N : ℕ} (hq : q.natDegree < N) :
    integ (q * q) = ∑ k ∈ range N, (2 * (k : K) + 1) * (∑ i ∈ range N, leg k i * q.coeff i) ^ 2 := by
  have e1 : integ (q * q) = ∑ i ∈ range N, ∑ j ∈ range N, q.coeff i * q.coeff j / (i + j + 1) := by
    conv_lhs => rw [q.as_sum_range' N hq]
    rw [sum_mul_sum, map_sum]
    refine sum_congr rfl fun i _ => ?_
    rw [map_sum]
    refine sum_congr rfl fun j _ => ?_
    rw [monomial_mul_monomial, integ_monomial]; push_cast; rfl
  rw [e1]
  have e2 : ∀ i ∈ range N, ∀ j, q.coeff i * q.coeff j / ((i : K) + j + 1) =
      ∑ k ∈ range N, (2 * (k : K) + 1) * ((leg k i * q.coeff i) * (leg k j * q.coeff j)) := by
    intro i hi j
    have := hilbert (K := K) (j := j) (mem_range.1 hi)
    rw [div_eq_mul_one_div, this, mul_sum]
    exact sum_congr rfl fun k _ => by ring
  rw [sum_congr rfl fun i hi => sum_congr rfl fun j _ => e2 i hi j]
  rw [sum_congr rfl fun i _ => sum_comm, sum_comm]
  refine sum_congr rfl fun k _ => ?_
  rw [pow_two, sum_mul_sum, mul_sum]
  exact sum_congr rfl fun i _ => by rw [mul_sum]

open Polynomial in
theorem integ_sq_nonneg (q : K[X]) : 0 ≤ integ (q * q) := by
  rw [integ_sq (Nat.lt_succ_self _)]
  exact sum_nonneg fun k _ => mul_nonneg (by positivity) (sq_nonneg _)

open Polynomial in
theorem integ_sq_top {q : K[X]} {d : ℕ} (hq : q.natDegree ≤ d) (h : integ (q * q) = 0) : q.coeff d = 0 := by
  rw [integ_sq (Nat.lt_succ_of_le hq)] at h
  have := (sum_eq_zero_iff_of_nonneg fun k _ => mul_nonneg (by positivity) (sq_nonneg _)).1 h d (by simp)
  have h1 : (2 * (d : K) + 1) ≠ 0 := by positivity
  rw [mul_eq_zero, or_iff_right h1, pow_eq_zero_iff two_ne_zero, sum_eq_single d] at this
  · exact (mul_eq_zero.1 this).resolve_left (leg_ne le_rfl)
  · intro i hi hne
    rw [leg_zero (by have := mem_range.1 hi; omega), zero_mul]
  · intro h; simp at h

open Polynomial in
/-- `Σ (-1)ⁱ p^(m-1-i) p^(m+i)` -/
noncomputable def flux (m : ℕ) (p : K[X]) : K[X] :=
  ∑ i ∈ range m, (-1) ^ i * (derivative^[m - 1 - i] p * derivative^[m + i] p)

open Polynomial in
theorem flux_derivative {m : ℕ} {p : K[X]} (hp : p.natDegree < 2 * m) :
    derivative (flux m p) = derivative^[m] p * derivative^[m] p := by
  set g : ℕ → K[X] := fun i => (-1) ^ i * (derivative^[m - i] p * derivative^[m + i] p) with hg
  have h1 : derivative (flux m p) = ∑ i ∈ range m, (g i - g (i + 1)) := by
    unfold flux
    rw [derivative_sum]
    refine sum_congr rfl fun i hi => ?_
    rw [mem_range] at hi
    have hc : ((-1) ^ i : K[X]) = C ((-1) ^ i) := by simp
    simp only [hg]
    rw [hc, derivative_C_mul, derivative_mul, ← Function.iterate_succ_apply' derivative, ← Function.iterate_succ_apply' derivative,
      show (m - 1 - i).succ = m - i by omega, show (m + i).succ = m + (i + 1) by omega, show m - (i + 1) = m - 1 - i by omega, pow_succ, ← hc]
    ring
  rw [h1, sum_range_sub']
  have h2 : derivative^[m + m] p = 0 := iterate_derivative_eq_zero (by omega)
  simp only [hg]
  rw [h2]; simp

open Polynomial in
theorem energy {m : ℕ} {p : K[X]} (hp : p.natDegree < 2 * m) :
    (flux m p).eval 1 - (flux m p).eval 0 = integ (derivative^[m] p * derivative^[m] p) := by
  rw [← flux_derivative hp, integ_derivative]

open Polynomial in
/-- piece `j` -/
noncomputable def pc (n : ℕ) (z : ℕ → K) (j : ℕ) : K[X] := ∑ k ∈ range (n + 1), monomial k (aC n z j k)

open Polynomial in
theorem pc_coeff (j : ℕ) {k : ℕ} (hk : k ≤ n) : (pc n z j).coeff k = aC n z j k := by
  unfold pc
  rw [finsetSum_coeff]
  simp only [coeff_monomial]
  rw [sum_ite_eq', if_pos (by simp; omega)]

open Polynomial in
theorem pc_degree (j : ℕ) : (pc n z j).natDegree ≤ n := by
  unfold pc
  refine natDegree_sum_le_of_forall_le _ _ fun k hk => ?_
  exact (natDegree_monomial_le _).trans (by have := mem_range.1 hk; omega)

open Polynomial in
theorem pc_right (j k : ℕ) : (hasseDeriv k (pc n z j)).eval 1 = bC n z j k := by
  unfold pc bC
  rw [map_sum, eval_finsetSum]
  refine sum_congr rfl fun i _ => ?_
  rw [hasseDeriv_monomial, eval_monomial]; simp

open Polynomial in
theorem pc_left (j : ℕ) {k : ℕ} (hk : k ≤ n) : (hasseDeriv k (pc n z j)).eval 0 = aC n z j k := by
  rw [← coeff_zero_eq_eval_zero, hasseDeriv_coeff, Nat.zero_add, Nat.choose_self, Nat.cast_one, one_mul, pc_coeff j hk]

open Polynomial in
theorem iter_eval (p : K[X]) (k : ℕ) (t : K) : (derivative^[k] p).eval t = k.factorial * (hasseDeriv k p).eval t := by
  rw [← factorial_smul_hasseDeriv]
  simp

/-- the flux at the left end of piece `j`, in the variable `x` -/
def fluxL (m : ℕ) (n : ℕ) (x : List K) (z : ℕ → K) (j : ℕ) : K :=
  (∑ i ∈ range m, (-1) ^ i * (((m - 1 - i).factorial * aC n z j (m - 1 - i)) * ((m + i).factorial * aC n z j (m + i)))) / width x j ^ n

theorem flux_left {m : ℕ} (hm : n + 1 = 2 * m) (hs : x.Pairwise (· < ·)) {j : ℕ} (hj : j < x.length - 1) :
    (flux m (pc n z j)).eval 0 = width x j ^ n * fluxL m n x z j := by
  unfold fluxL
  rw [mul_div_cancel₀ _ (pow_ne_zero n (width_ne hs (by omega)))]
  unfold flux
  rw [Polynomial.eval_finsetSum]
  refine sum_congr rfl fun i hi => ?_
  rw [mem_range] at hi
  rw [Polynomial.eval_mul, Polynomial.eval_mul, iter_eval, iter_eval, pc_left _ (by omega), pc_left _ (by omega)]
  simp

theorem flux_right {m : ℕ} (hm : n + 1 = 2 * m) (hm2 : 2 ≤ m) (hs : x.Pairwise (· < ·)) {j j' : ℕ} (hj : j < x.length - 1) (hj' : j' < x.length - 1)
    (h0 : bC n z j 0 = 0) (hb : ∀ k, 1 ≤ k → k < n → bC n z j k = (width x j / width x j') ^ k * aC n z j' k) :
    (flux m (pc n z j)).eval 1 = width x j ^ n * fluxL m n x z j' := by
  have hw := width_ne hs (show j + 1 < x.length by omega)
  have hw' := width_ne hs (show j' + 1 < x.length by omega)
  unfold fluxL flux
  rw [Polynomial.eval_finsetSum, mul_div_assoc', mul_comm, mul_div_assoc, sum_mul]
  refine sum_congr rfl fun i hi => ?_
  rw [mem_range] at hi
  rw [Polynomial.eval_mul, Polynomial.eval_mul, iter_eval, iter_eval, pc_right, pc_right]
  rcases Nat.eq_or_lt_of_le (show i + 1 ≤ m by omega) with h1 | h1
  · rw [show m - 1 - i = 0 by omega, h0, aC_zero]; simp
  · rw [hb _ (by omega) (by omega), hb _ (by omega) (by omega)]
    have e : width x j ^ n / width x j' ^ n = (width x j / width x j') ^ (m - 1 - i) * (width x j / width x j') ^ (m + i) := by
      rw [← pow_add, ← div_pow, show m - 1 - i + (m + i) = n by omega]
    rw [e]; simp; ring

/-- **Odd degree**: only the trivial solution. -/
theorem cyc_degree (hn : 3 ≤ n) (hodd : Odd n) (hx : 2 ≤ x.length) (hs : x.Pairwise (· < ·)) (h : Sys n x ([] : List K) z) (hw : Wrap n x z) :
    ∀ i < (x.length - 1) * n, z i = 0 := by
  obtain ⟨r, hr⟩ := hodd
  obtain ⟨m, hm⟩ : ∃ m, n + 1 = 2 * m := ⟨r + 1, by omega⟩
  refine cyc_smooth (by omega) hx hs h hw fun j hj => ?_
  have hE : ∀ j < x.length - 1, fluxL m n x z ((j + 1) % (x.length - 1)) - fluxL m n x z j =
      Spl.integ ((Polynomial.derivative)^[m] (pc n z j) * (Polynomial.derivative)^[m] (pc n z j)) / width x j ^ n := by
    intro j hj
    have hwn := pow_ne_zero n (width_ne hs (show j + 1 < x.length by omega))
    rw [← energy (by have := pc_degree (n := n) (z := z) j; omega), flux_left hm hs hj, 
      flux_right (j' := (j + 1) % (x.length - 1)) hm (by omega) hs hj (Nat.mod_lt _ (by omega)) (bC_zero h hj) ?_]
    · rw [← mul_sub, mul_div_cancel_left₀ _ hwn]
    · intro k hk hkn
      rcases Nat.lt_or_ge (j + 1) (x.length - 1) with h1 | h1
      · rw [Nat.mod_eq_of_lt h1]; exact bC_next h h1 hk hkn
      · rw [show j + 1 = x.length - 1 by omega, Nat.mod_self, show j = x.length - 2 by omega]
        exact wrap_eq hw hk hkn
  have hsum : ∑ j ∈ range (x.length - 1), (fluxL m n x z ((j + 1) % (x.length - 1)) - fluxL m n x z j) = 0 := by
    obtain ⟨N, hN⟩ : ∃ N, x.length - 1 = N + 1 := ⟨x.length - 2, by omega⟩
    rw [hN, sum_sub_distrib, sum_range_succ, Nat.mod_self, sum_range_succ' (fun j => fluxL m n x z j), sub_eq_zero]
    congr 1
    refine sum_congr rfl fun j hj => ?_
    rw [Nat.mod_eq_of_lt (by have := mem_range.1 hj; omega)]
  rw [sum_congr rfl fun j hj => hE j (mem_range.1 hj)] at hsum
  have h1 := (sum_eq_zero_iff_of_nonneg fun j hj => div_nonneg (integ_sq_nonneg _)
    (pow_nonneg (width_pos hs (by have := mem_range.1 hj; omega)).le n)).1 hsum j (mem_range.2 hj)
  rw [div_eq_zero_iff, or_iff_left (pow_ne_zero n (width_ne hs (by omega)))] at h1
  have h2 := integ_sq_top (d := n - m) ((Polynomial.natDegree_iterate_derivative _ _).trans (Nat.sub_le_sub_right (pc_degree j) m)) h1
  rw [Polynomial.coeff_iterate_derivative, show n - m + m = n by omega, pc_coeff j le_rfl, smul_eq_zero] at h2
  refine h2.resolve_left ?_
  rw [Nat.descFactorial_eq_zero_iff_lt]; omega

end Npplus.Spl
