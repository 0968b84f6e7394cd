import Verif.Lemmas.Poly
import Mathlib.Algebra.Polynomial.Derivative
import Mathlib.Algebra.Polynomial.Eval.Defs
import Mathlib.Data.Rat.Defs
import Mathlib.Algebra.Field.Rat
import Mathlib.Tactic.NormNum

/-!
# Properties C01, C02, C03: `polyfun` and `polyddx`
-/

namespace Npplus
open Spec Finset

section adequacy
/-! The vocabulary of `Spec/Poly.lean` agrees with Mathlib's polynomials. -/
variable {K : Type} [Field K]

/-- The polynomial with the given coefficients, in Mathlib's sense. -/
noncomputable def toPoly (c : List K) : Polynomial K :=
  ∑ i ∈ range c.length, Polynomial.monomial i (c.getD i 0)

theorem polyVal_eq_eval (c : List K) (x : K) : polyVal c x = (toPoly c).eval x := by
  simp [polyVal, toPoly, Polynomial.eval_finset_sum, mul_comm]

theorem polyDeriv_eq_eval (c : List K) (x : K) (k : ℕ) :
    polyDeriv c x k = (Polynomial.derivative^[k] (toPoly c)).eval x := by
  unfold toPoly polyDeriv
  rw [Polynomial.iterate_derivative_sum, Polynomial.eval_finset_sum]
  refine sum_congr rfl fun i _ => ?_
  rw [← Polynomial.C_mul_X_pow_eq_monomial, Polynomial.iterate_derivative_C_mul,
    Polynomial.iterate_derivative_X_pow_eq_natCast_mul]
  simp; ring

end adequacy

variable {K : Type} [Field K] {V : Type} [AddCommGroup V] [Module K V]

/-- **C01.** `polyfun(c, x)` is `Σ c[i] x^i` for every coefficient array of length at least 1 and
every `x`, and an empty coefficient array raises IndexError. -/
theorem C01_polyfun (c : List V) (x : K) :
    (c ≠ [] → polyfunE c x = .ok (∑ i ∈ range c.length, x ^ i • c.getD i 0)) ∧
    (c = [] → polyfunE c x = .error .indexError) := by
  constructor
  · intro h
    have : c.length ≠ 0 := by simpa using h
    simp only [polyfunE, this, if_false, polyfun_eq]; rfl
  · rintro rfl; rfl

-- C01 is not vacuous: 3 - 2x + 5x^3 at x = 2
example : polyfunE ([3, -2, 0, 5] : List ℚ) (2 : ℚ) = .ok 39 := by decide +kernel

/-- **C02** (partial: at least two coefficients, or no derivative requested).
Row `k ≤ nd` of `polyddx(c, x, nd)` times `k!` is the `k`-th derivative, there are `nd+1` rows, with
`norm=True` row `k` is the `k`-th derivative; rows beyond the degree are zero.
Missing: one coefficient and `nd ≥ 1`, where the code is wrong (`C02_constant_wrong`). -/
theorem C02_polyddx_partial (c : List V) (x : K) (nd : ℕ) (h : 2 ≤ c.length ∨ (c ≠ [] ∧ nd = 0)) :
    ∃ rows, polyddxE c x nd = .ok rows ∧ rows.length = nd + 1 ∧
      (polyddxNorm c x nd).length = nd + 1 ∧
      ∀ k ≤ nd, rows.getD k 0 = taylorCoeff c x k ∧
        (Nat.factorial k : K) • rows.getD k 0 = polyDeriv c x k ∧
        (polyddxNorm c x nd).getD k 0 = polyDeriv c x k ∧
        (c.length ≤ k → rows.getD k 0 = 0) := by
  have h0 : c.length ≠ 0 := by
    rcases h with h | h
    · omega
    · simpa using h.1
  have e := polyddx_eq c x nd (h.imp id And.right)
  refine ⟨polyddx c x nd, by simp [polyddxE, h0], by rw [e]; simp, by simp [polyddxNorm, e], ?_⟩
  intro k hk
  have r : (polyddx c x nd).getD k 0 = taylorCoeff c x k := by rw [e, tcList_getD _ _ _ _ hk]
  refine ⟨r, by rw [r, polyDeriv_eq], ?_, fun hc => by rw [r, taylorCoeff_eq_zero _ _ _ hc]⟩
  unfold polyddxNorm
  have hl : k < (polyddx c x nd).length := by rw [e]; simp; omega
  rw [List.getD_eq_getElem?_getD, List.getElem?_mapIdx, List.getElem?_eq_getElem hl]
  simp only [Option.map_some, Option.getD_some]
  rw [polyDeriv_eq, ← r, List.getD_eq_getElem?_getD, List.getElem?_eq_getElem hl, Option.getD_some]

-- C02: 1 + 2x + 3x² at x = 2: value 17, derivative 14, half the second derivative 3, then 0
example : polyddxE ([1, 2, 3] : List ℚ) (2 : ℚ) 3 = .ok [17, 14, 3, 0] := by decide +kernel

/-- **C02, refuted for constants.** With a single coefficient and `nd ≥ 1` the row of the first
derivative is the constant itself instead of 0, for every constant, point and `nd`. -/
theorem C02_constant_wrong (a : V) (x : K) (nd : ℕ) :
    polyddxE [a] x (nd + 1) = .ok (a :: a :: List.replicate nd 0) ∧
    (a ≠ 0 → (a :: a :: List.replicate nd (0:V)).getD 1 0 ≠ polyDeriv [a] x 1) := by
  constructor
  · simp [polyddxE, polyddx, backFrom3, polyddxInit, polysetup, List.replicate_succ]
  · intro ha; simpa [polyDeriv] using ha

/-- **C03.** `polyddx(c, x)` (all derivatives) holds the coefficients of the polynomial translated
by `x`: evaluating it at `t` gives the value of `c` at `x + t`, and translating twice is translating
once by the sum. -/
theorem C03_translate (c : List V) (hc : c ≠ []) (x t : K) :
    polyfunE (polyddxAll c x) t = polyfunE c (x + t) ∧
    polyddxAll (polyddxAll c x) t = polyddxAll c (x + t) ∧
    (polyddxAll c x).length = c.length := by
  have hl : 1 ≤ c.length := by
    rcases Nat.eq_zero_or_pos c.length with h | h
    · simp at h; exact absurd h hc
    · exact h
  have hd : 2 ≤ c.length ∨ c.length - 1 = 0 := by omega
  have e : ∀ x : K, polyddxAll c x = tcList c x (c.length - 1) := fun x => polyddx_eq _ _ _ hd
  have hlen : ∀ x : K, (polyddxAll c x).length = c.length := by intro x; rw [e]; simp; omega
  refine ⟨?_, ?_, hlen x⟩
  · unfold polyfunE
    rw [hlen, polyfun_eq, polyfun_eq, e, polyVal_tcList _ _ _ _ (by omega)]
  · have e2 : polyddxAll (polyddxAll c x) t =
        tcList (polyddxAll c x) t (c.length - 1) := by
      unfold polyddxAll at *
      rw [polyddx_eq _ _ _ (by rw [hlen x]; exact hd)]
      rw [hlen x]
    rw [e2, e, e]
    apply List.ext_getElem
    · simp
    · intro i h1 h2
      simp only [length_tcList] at h1 h2
      have a := tcList_getD (tcList c x (c.length - 1)) t (c.length - 1) i (by omega)
      have b := tcList_getD c (x + t) (c.length - 1) i (by omega)
      rw [List.getD_eq_getElem?_getD, List.getElem?_eq_getElem (by simp; omega),
        Option.getD_some] at a b
      rw [a, b, taylorCoeff_tcList _ _ _ _ _ (by omega)]

example : polyddxAll (polyddxAll ([1, 2, 3] : List ℚ) (2 : ℚ)) (-2 : ℚ) = [1, 2, 3] := by decide +kernel

end Npplus
