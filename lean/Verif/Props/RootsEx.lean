import Verif.Props.Roots
import Verif.Model.PerPw
import Mathlib.LinearAlgebra.Matrix.Charpoly.Coeff
import Mathlib.LinearAlgebra.Matrix.ToLinearEquiv
import Mathlib.Tactic.FinCases
import Mathlib.Data.Rat.Floor

/-!
# C21, C22: `PwPoly.roots`: the contract of eigvals can be met; defects of the code; examples
-/

set_option linter.unusedSectionVars false
set_option linter.unusedVariables false

namespace Npplus

open Spec Finset Roots

/-- The exact eigenvalues. -/
noncomputable def exactEig {K : Type} [Field K] [DecidableEq K] (n : ℕ) (M : Matrix (Fin n) (Fin n) K) : List K :=
  M.charpoly.roots.toFinset.toList

theorem exactEig_ok {K : Type} [Field K] [LinearOrder K] : EigSpec (K := K) exactEig where
  mem n M t := by
    unfold exactEig
    rw [Finset.mem_toList, Multiset.mem_toFinset, Polynomial.mem_roots M.charpoly_monic.ne_zero, Polynomial.IsRoot,
      Matrix.eval_charpoly, ← Matrix.exists_mulVec_eq_zero_iff]
    refine exists_congr fun u => and_congr_right fun _ => ?_
    rw [Matrix.sub_mulVec, sub_eq_zero]
    constructor
    · intro h i
      have := congrFun h i
      rw [Matrix.scalar_apply, Matrix.mulVec_diagonal] at this
      rw [this]; rfl
    · intro h
      funext i
      rw [Matrix.scalar_apply, Matrix.mulVec_diagonal, ← h i]; rfl
  len n M := by
    unfold exactEig
    rw [Finset.length_toList]
    refine (Multiset.toFinset_card_le _).trans ((Polynomial.card_roots' _).trans ?_)
    rw [M.charpoly_natDegree_eq_dim, Fintype.card_fin]

/-- Exact eigenvalues over the rationals, computable for matrices of order 1 and for those of order 2
with a double eigenvalue. -/
noncomputable def ratEig (n : ℕ) (M : Matrix (Fin n) (Fin n) ℚ) : List ℚ :=
  match n, M with
  | 1, M => [M 0 0]
  | 2, M => if (M 0 0 - M 1 1) ^ 2 + 4 * (M 0 1 * M 1 0) = 0 then [(M 0 0 + M 1 1) / 2] else exactEig 2 M
  | n, M => exactEig n M

theorem ratEig_ok : EigSpec ratEig := by
  have key : ∀ n (M : Matrix (Fin n) (Fin n) ℚ), (∀ t, t ∈ ratEig n M ↔ t ∈ exactEig n M) ∧ (ratEig n M).length ≤ n := by
    intro n M
    match n, M with
    | 0, M => exact ⟨fun t => Iff.rfl, exactEig_ok.len _ _⟩
    | 1, M =>
      refine ⟨fun t => ?_, by simp [ratEig]⟩
      rw [exactEig_ok.mem]
      simp only [ratEig, List.mem_singleton]
      constructor
      · rintro rfl
        refine ⟨fun _ => 1, ?_, ?_⟩
        · intro h; have := congrFun h 0; simp at this
        · intro i; fin_cases i; simp
      · rintro ⟨u, hu, h⟩
        have h0 := h 0
        simp at h0
        rcases h0 with h0 | h0
        · exact h0.symm
        · exfalso; apply hu; funext i; fin_cases i; simpa using h0
    | 2, M =>
      simp only [ratEig]
      split
      · next hd =>
        refine ⟨fun t => ?_, by simp⟩
        unfold exactEig
        rw [Finset.mem_toList, Multiset.mem_toFinset, Polynomial.mem_roots M.charpoly_monic.ne_zero, Polynomial.IsRoot,
          Matrix.eval_charpoly, Matrix.det_fin_two, List.mem_singleton]
        simp
        constructor
        · intro h; subst h; linear_combination (-1/4 : ℚ) * hd
        · intro h
          have : (t - (M 0 0 + M 1 1) / 2) ^ 2 = 0 := by linear_combination h + (1/4 : ℚ) * hd
          have := pow_eq_zero_iff (two_ne_zero) |>.mp this
          linarith
      · exact ⟨fun t => Iff.rfl, exactEig_ok.len _ _⟩
    | n + 3, M => exact ⟨fun t => Iff.rfl, exactEig_ok.len _ _⟩
  exact ⟨fun n M t => by rw [(key n M).1, exactEig_ok.mem], fun n M => (key n M).2⟩

/-- Well-formedness of an explicit scalar function. -/
theorem wf_of_decide {p : PwPoly ℚ ℚ} (h : p.xk ≠ [] ∧ p.xk.Pairwise (· < ·) ∧ p.c.length = p.xk.length + 1 ∧ 1 ≤ p.n ∧
    ∀ l ∈ p.c, l.length = p.n) : WF p := ⟨h.1, h.2.1, h.2.2.1, h.2.2.2.1, h.2.2.2.2⟩

/-- **C21 is violated**: when no root exists the result is not an empty array; ValueError is raised
(the constant function 1, stored with degree 1). -/
theorem C21_empty_refuted : ∃ p : PwPoly ℚ ℚ, WF p ∧ (∀ x, ¬ Solution p 0 x) ∧
    p.roots ratEig 0 (1/1000000000) = .error .valueError := by
  refine ⟨⟨[0], 2, [[1, 0], [1, 0]]⟩, wf_of_decide (by decide +kernel), ?_, by decide +kernel⟩
  have hv : ∀ i x, i ≤ 1 → pieceVal (⟨[0], 2, [[1, 0], [1, 0]]⟩ : PwPoly ℚ ℚ) i x = 1 := by
    intro i x hi
    have : i = 0 ∨ i = 1 := by omega
    rcases this with rfl | rfl <;> simp [pieceVal, piece, polyVal_cons]
  rintro x (h | ⟨j, ⟨hj, h⟩, _⟩)
  · rw [PwPoly.call_eq (wf_of_decide (by decide +kernel)), hv _ _ (by exact searchsorted_le _ _)] at h
    exact absurd h (by norm_num)
  · have : j = 0 := by simpa using hj
    subst this
    rw [hv _ _ (by omega), hv _ _ (by omega)] at h
    norm_num at h

/-- **C21 is violated**: a value which is not a root is returned.  The linear middle piece `x - 4` on
(0,1] has its root at 4, outside the piece; it is returned because the first piece is linear too. -/
theorem C21_spurious_refuted : ∃ p : PwPoly ℚ ℚ, WF p ∧ ∃ L, p.roots ratEig 0 (1/1000000000) = .ok L ∧
    ∃ x ∈ L, p.call x = -3 ∧ x ∉ p.xk :=
  ⟨⟨[0, 1], 3, [[-4, -4, 0], [-4, 1, 0], [-3, 0, 0]]⟩, wf_of_decide (by decide +kernel), [-1, 4],
    by decide +kernel, 4, by simp, by decide +kernel, by decide +kernel⟩

/-- **C21 and C22 are violated**: the degree of another piece is used, and the value returned is not a
root (`1/3` instead of the root of `1 - 3x + x²` in (0,1]). -/
theorem C21_wrong_degree_refuted : ∃ p : PwPoly ℚ ℚ, WF p ∧ ∃ L, p.roots ratEig 0 (1/1000000000) = .ok L ∧
    ∃ x ∈ L, p.call x = 1/9 ∧ x ∉ p.xk :=
  ⟨⟨[0, 1], 3, [[1, 1, 0], [1, -3, 1], [-1, 0, 0]]⟩, wf_of_decide (by decide +kernel), [-1, 1/3],
    by decide +kernel, 1/3, by simp, by decide +kernel, by decide +kernel⟩

/-- **C21 and C22 are violated**: IndexError for a function with a constant negative extrapolation on
the left, although the function is continuous and has the root 1 in (0, 2] (`2 x² - 2`). -/
theorem C21_index_error_refuted : ∃ p : PwPoly ℚ ℚ, WF p ∧ p.call 1 = 0 ∧
    p.roots ratEig 0 (1/1000000000) = .error .indexError :=
  ⟨⟨[0, 2], 3, [[-2, 0, 0], [-2, 0, 2], [6, 0, 0]]⟩, wf_of_decide (by decide +kernel), by decide +kernel,
    by decide +kernel⟩

/-- **C22 is violated**: a root of the last, semi-infinite, piece is missed when it is more than one
width beyond the last knot (`(x-2)²` for x > 0, constant for x ≤ 0, a continuous function), and
ValueError is raised instead. -/
theorem C22_missed_refuted : ∃ p : PwPoly ℚ ℚ, WF p ∧ p.call 2 = 0 ∧ p.call 1 ≠ 0 ∧
    p.roots ratEig 0 (1/1000000000) = .error .valueError :=
  ⟨⟨[0], 3, [[4, 0, 0], [4, -4, 1]]⟩, wf_of_decide (by decide +kernel), by decide +kernel, by decide +kernel,
    by decide +kernel⟩

/-- The same without an error: the root at 3 is missed while the one at -1 is found. -/
theorem C22_missed_silently_refuted : ∃ p : PwPoly ℚ ℚ, WF p ∧ p.call 3 = 0 ∧
    ∃ L, p.roots ratEig 0 (1/1000000000) = .ok L ∧ 3 ∉ L :=
  ⟨⟨[0, 1], 3, [[1, 2, 1], [1, 3, 0], [4, -4, 1]]⟩, wf_of_decide (by decide +kernel), by decide +kernel, [-1],
    by decide +kernel, by decide +kernel⟩

/-- pwpoly.py:412-523 `roots` inherited by PerPwPoly: it works on the stored pieces, semi-infinite ones
included. -/
def PerPwPoly.roots {K : Type} [Field K] [LinearOrder K] (E : (n : ℕ) → Matrix (Fin n) (Fin n) K → List K)
    (p : PerPwPoly K K) (value tol : K) : Except PyErr (List K) := p.base.roots E value tol

/-- **C21 is violated for periodic functions**: the roots of the extrapolated end pieces are returned,
although the periodic function is not zero there (sawtooth `1 + x` on [0, 1): `-1` is returned, the
function is 1 there). -/
theorem C21_periodic_refuted : ∃ (p : PwPoly ℚ ℚ) (q : PerPwPoly ℚ ℚ), WF p ∧ PerPwPoly.new p = .ok q ∧
    q.roots ratEig 0 (1/1000000000) = .ok [-1] ∧ q.call (-1) = .ok 1 :=
  ⟨⟨[0, 1], 2, [[1, 1], [1, 1], [2, 1]]⟩, ⟨⟨[0, 1], 2, [[1, 1], [1, 1], [2, 1]]⟩, some 1⟩,
    wf_of_decide (by decide +kernel), by
      simp [PerPwPoly.new, polyddx, backFrom3, polyddxInit, polysetup]; norm_num,
    by decide +kernel, by decide +kernel⟩

/-- `x² - 1/4` with the knots 0 and 1: the hypotheses of C21 and C22 are met. -/
def exRt : PwPoly ℚ ℚ := ⟨[0, 1], 3, [[-1/4, 0, 1], [-1/4, 0, 1], [3/4, 2, 1]]⟩

theorem exRt_WF : WF exRt := wf_of_decide (by decide +kernel)

theorem exRt_deg : ∀ i ≤ 2, pieceDeg exRt i = 2 := by decide +kernel

theorem exRt_nl : NonlinearFirst exRt 0 := fun i j hi _ _ _ => (exRt_deg i hi.1).ge

theorem exRt_neg : NotNegligible exRt 0 (1/1000000000) := by
  have : ∀ i ≤ 2, ∀ k < 3, (1/1000000000 : ℚ) * |unitCoef exRt 0 i k| < |unitCoef exRt 0 i 2| := by decide +kernel
  intro i hm _ k hk
  rw [exRt_deg i hm.1]
  exact this i hm.1 k hk

example : ∃ L, exRt.roots ratEig 0 (1/1000000000) = .ok L ∧ (∃ r ∈ L, r ≤ 1/2 ∧ 1/2 - r ≤ 11 * (1/1000000000)) ∧
    ∀ x ∈ L, Solution exRt 0 x := by
  obtain ⟨L, hL, r, hr, h1, h2⟩ := C22_roots_complete_partial ratEig_ok exRt_WF (by decide) (by norm_num) exRt_neg exRt_nl
    (W := 1) (by decide +kernel) (x := 1/2) (i := 1) ⟨by decide, by decide +kernel, by decide +kernel⟩ (by decide +kernel)
    ⟨1, by decide +kernel⟩ (Or.inl (by decide +kernel))
  refine ⟨L, hL, ⟨r, hr, h1, h2.trans (by simp [exRt])⟩, ?_⟩
  exact (C21_roots_sound_partial ratEig_ok exRt_WF (by decide) (by norm_num) exRt_neg exRt_nl
    (Or.inr (Or.inr fun i _ h hm => by rw [exRt_deg i hm.1]; decide)) hL).1

/-- A broken line with the roots 1/2 and 5. -/
def exRl : PwPoly ℚ ℚ := ⟨[0, 1], 2, [[1, 0], [1, -2], [-1, 1/4]]⟩

theorem exRl_WF : WF exRl := wf_of_decide (by decide +kernel)

example : exRl.roots ratEig 0 0 = .ok [1/2, 5] := by decide +kernel

example : ∃ L, exRl.roots ratEig 0 0 = .ok L ∧ L.Pairwise (· < ·) ∧ ∀ x, x ∈ L ↔ Solution exRl 0 x :=
  (C22_piecewise_linear ratEig_ok exRl_WF rfl (by
    intro i hi
    have : i = 0 ∨ i = 1 ∨ i = 2 := by change i ≤ 2 at hi; omega
    rcases this with rfl | rfl | rfl
    · exact ⟨0, by decide +kernel⟩
    · exact ⟨0, by decide +kernel⟩
    · exact ⟨0, by decide +kernel⟩)).1 ⟨5, Or.inl (by decide +kernel)⟩

/-- Also with the default tolerance. -/
example : exRl.roots ratEig 0 (1/1000000000) = .ok [1/2, 5] ∧ ∀ x ∈ [1/2, 5], Solution exRl 0 x := by
  have h : exRl.roots ratEig 0 (1/1000000000) = .ok [1/2, 5] := by decide +kernel
  refine ⟨h, (C21_piecewise_linear ratEig_ok exRl_WF rfl (by norm_num) (by norm_num) ?_ h).1⟩
  have : ∀ i ≤ 2, pieceDeg exRl i = 1 → (1/1000000000 : ℚ) * |unitCoef exRl 0 i 0| < |unitCoef exRl 0 i 1| := by
    decide +kernel
  intro i _ hm hd
  exact this i hm.1 hd

/-- The error for a function without root, from the general theorem: `x² + 1`. -/
example : (⟨[0], 3, [[1, 0, 1], [1, 0, 1]]⟩ : PwPoly ℚ ℚ).roots ratEig 0 (1/1000000000) = .error .valueError := by
  have hW : WF (⟨[0], 3, [[1, 0, 1], [1, 0, 1]]⟩ : PwPoly ℚ ℚ) := wf_of_decide (by decide +kernel)
  have hd : ∀ i ≤ 1, pieceDeg (⟨[0], 3, [[1, 0, 1], [1, 0, 1]]⟩ : PwPoly ℚ ℚ) i = 2 := by decide +kernel
  have hv : ∀ i x, i ≤ 1 → pieceVal (⟨[0], 3, [[1, 0, 1], [1, 0, 1]]⟩ : PwPoly ℚ ℚ) i x = 1 + x ^ 2 := by
    intro i x hi
    have : i = 0 ∨ i = 1 := by omega
    rcases this with rfl | rfl <;> simp [pieceVal, piece, polyVal_cons, origin] <;> ring
  refine C21_no_root_error ratEig_ok hW (by decide) (by norm_num) ?_ (fun i j hi _ _ _ => (hd i hi.1).ge)
    (Or.inr (Or.inr fun i _ h hm => by rw [hd i hm.1]; decide)) ?_
  · have : ∀ i ≤ 1, ∀ k < 3, (1/1000000000 : ℚ) * |unitCoef (⟨[0], 3, [[1, 0, 1], [1, 0, 1]]⟩ : PwPoly ℚ ℚ) 0 i k| <
        |unitCoef (⟨[0], 3, [[1, 0, 1], [1, 0, 1]]⟩ : PwPoly ℚ ℚ) 0 i 2| := by decide +kernel
    intro i hm _ k hk
    rw [hd i hm.1]
    exact this i hm.1 k hk
  · rintro x (h | ⟨j, ⟨hj, h⟩, _⟩)
    · rw [PwPoly.call_eq hW, hv _ _ (by exact searchsorted_le _ _)] at h
      nlinarith [sq_nonneg x]
    · have : j = 0 := by simpa using hj
      subst this
      rw [hv _ _ (by omega), hv _ _ (by omega)] at h
      norm_num at h

/-- `x² - 1` on the knots 0 and 3/2: both roots are returned. -/
example : ∃ L, (⟨[0, 3/2], 3, [[-1, 0, 1], [-1, 0, 1], [5/4, 3, 1]]⟩ : PwPoly ℚ ℚ).roots ratEig 0 0 = .ok L ∧ (1 : ℚ) ∈ L ∧ (-1 : ℚ) ∈ L := by
  obtain ⟨h1, -, -⟩ := C22_all_nonlinear ratEig_ok (p := (⟨[0, 3/2], 3, [[-1, 0, 1], [-1, 0, 1], [5/4, 3, 1]]⟩ : PwPoly ℚ ℚ)) (v := 0)
    (wf_of_decide (by decide +kernel)) (by decide +kernel)
  obtain ⟨L, hL, h⟩ := h1 1 (.inl (by decide +kernel)) (.inl (by decide +kernel))
  obtain ⟨L', hL', h'⟩ := h1 (-1) (.inl (by decide +kernel)) (.inl (by decide +kernel))
  rw [hL] at hL'
  exact ⟨L, hL, h, Except.ok.inj hL' ▸ h'⟩

/-- A step function: the knots where it crosses 1/2. -/
example : (⟨[0, 1, 2], 1, [[0], [1], [2], [0]]⟩ : PwPoly ℚ ℚ).roots ratEig (1/2) 0 = .ok [0, 2] := by decide +kernel

end Npplus
