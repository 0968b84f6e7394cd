import Verif.Props.Spline

/-!
# C30: `pline`
-/

set_option linter.unusedSectionVars false

namespace Npplus

open Spec Finset PwPoly Spl

namespace Spec

variable {K : Type} [Field K] [LinearOrder K] {V : Type} [AddCommGroup V] [Module K V]

/-- The straight line through points `j` and `j+1` of the table `(x, y)`, at `t`. -/
def lineThrough (x : List K) (y : List V) (j : ℕ) (t : K) : V :=
  y.getD j 0 + ((t - x.getD j 0) / (x.getD (j + 1) 0 - x.getD j 0)) • (y.getD (j + 1) 0 - y.getD j 0)

/-- `f` is `numpy.interp(·, x, y)`: between neighbouring points of the table the line through them, constant
before the first and after the last. -/
structure IsInterp (x : List K) (y : List V) (f : K → V) : Prop where
  left : ∀ t, t ≤ x.getD 0 0 → f t = y.getD 0 0
  right : ∀ t, x.getD (x.length - 1) 0 ≤ t → f t = y.getD (x.length - 1) 0
  between : ∀ j, j + 1 < x.length → ∀ t, x.getD j 0 ≤ t → t ≤ x.getD (j + 1) 0 → f t = lineThrough x y j t

end Spec

variable {K : Type} [Field K] [LinearOrder K] [IsStrictOrderedRing K] {V : Type} [AddCommGroup V] [Module K V]
  {inv : InvFun K} {S : Scipy K} {x : List K} {y : List V} {extrap : Option (ℕ × ℕ)}

/-- `pline` returns for all valid tables. -/
theorem pline_eq (hinv : InvOK inv) (hs : x.Pairwise (· < ·)) (hx : 2 ≤ x.length) (hy : y.length = x.length) :
    pline inv S x y extrap = .ok (.pw (truncEnds (extrap.getD (0, 0)) (assemble 1 x y (zlin y)))) := by
  unfold pline spline
  simp only [bind, Except.bind, pure, Except.pure, throw, throwThe, MonadExceptOf.throw]
  rw [if_neg (by omega), if_neg (by omega), if_neg (by simp), if_neg (not_dec' hs)]
  simp only
  rw [if_neg (by simp), if_neg (by simp)]
  unfold nonper
  simp only [bind, Except.bind, pure, Except.pure]
  rw [if_pos (by omega), init_odd inv hs hx (by simp) (by simpa using hy)]
  simp only [Except.map]
  rw [linear_eq hx rfl rfl (initPieces_length _ _ _ _ hx) (fun j hj => init_lin_inner hinv hs hx hj)]

/-- The value of interval `j`. -/
theorem lin_piece (hs : x.Pairwise (· < ·)) {e : ℕ × ℕ} {j : ℕ} (hj : j + 1 < x.length) (t : K) :
    pieceVal (truncEnds e (assemble 1 x y (zlin y))) (j + 1) t = lineThrough x y j t := by
  unfold pieceVal
  rw [truncEnds_inner hj]
  have ho : origin (truncEnds e (assemble 1 x y (zlin y))).xk (j + 1) = x.getD j 0 := by
    simp [origin, truncEnds, assemble]
  have hi : inner 1 x y (zlin y) j = [y.getD j 0, (1 / width x j ^ (0 + 1)) • zlin y (j * 1 + 0)] := rfl
  rw [ho, hi]
  simp only [polyVal, List.length_cons, List.length_nil, zero_add, Nat.reduceAdd, sum_range_succ, sum_range_zero, lineThrough, zlin, width]
  simp only [mul_one, add_zero, zero_add, pow_one, pow_zero, one_smul, List.getD_cons_zero, List.getD_cons_succ]
  rw [smul_smul, mul_one_div]

/-- A point between knots `j` and `j+1` belongs to interval `j`, or is knot `j`. -/
theorem between_piece (hs : x.Pairwise (· < ·)) {j : ℕ} (hj : j + 1 < x.length) {t : K} (h1 : x.getD j 0 < t)
    (h2 : t ≤ x.getD (j + 1) 0) : InPiece x (j + 1) t := by
  rw [List.getD_eq_getElem _ _ (by omega)] at h1 h2
  refine ⟨by omega, fun i hi hij => lt_of_le_of_lt ?_ h1, fun i hi hij => le_trans h2 ?_⟩
  · rcases Nat.eq_or_lt_of_le (show i ≤ j by omega) with h0 | h0
    · subst h0; exact le_rfl
    · exact (List.pairwise_iff_getElem.mp hs i j _ (by omega) h0).le
  · rcases Nat.eq_or_lt_of_le hij with h0 | h0
    · subst h0; exact le_rfl
    · exact (List.pairwise_iff_getElem.mp hs (j + 1) i (by omega) hi h0).le

/-- **C30** — for all knots and data `pline(x, y)` returns, and the result is `numpy.interp` as a function;
with `extrap=(a, b)` it is the same between the end points, and linearly extrapolated to the left (right) when
`a` (`b`) is at least 1, constant when it is 0. -/
theorem C30_pline (hinv : InvOK inv) (hS : ScipyOK S) (hs : x.Pairwise (· < ·)) (hx : 2 ≤ x.length)
    (hy : y.length = x.length) :
    ∃ p, pline inv S x y extrap = .ok (.pw p) ∧ WF p ∧ p.xk = x ∧ p.deg = 1 ∧
      (extrap = none → IsInterp x y p.call) ∧
      (∀ j, j + 1 < x.length → ∀ t, x.getD j 0 ≤ t → t ≤ x.getD (j + 1) 0 → p.call t = lineThrough x y j t) ∧
      ∀ a b, extrap = some (a, b) →
        (∀ t, t ≤ x.getD 0 0 → p.call t = if a = 0 then y.getD 0 0 else lineThrough x y 0 t) ∧
        (∀ t, x.getD (x.length - 1) 0 ≤ t → p.call t =
          if b = 0 then y.getD (x.length - 1) 0 else lineThrough x y (x.length - 2) t) := by
  have hok := pline_eq (S := S) (extrap := extrap) hinv hs hx hy
  refine ⟨_, hok, ?_⟩
  set p := truncEnds (extrap.getD (0, 0)) (assemble 1 x y (zlin y)) with hp
  unfold pline at hok
  obtain ⟨hwf, hxk, hdeg, hcall, -, -⟩ := C24_spline hinv hS hs hok
  have hbet : ∀ j, j + 1 < x.length → ∀ t, x.getD j 0 ≤ t → t ≤ x.getD (j + 1) 0 →
      p.call t = lineThrough x y j t := by
    intro j hj t h1 h2
    rcases eq_or_lt_of_le h1 with heq | hlt
    · have := hcall j (by omega)
      rw [← List.getD_eq_getElem _ 0 (by omega)] at this
      rw [← heq, this]; simp [lineThrough]
    · rw [((C04_call_partial hwf t).2 (j + 1) (by rw [hxk]; exact between_piece hs hj hlt h2)).1, hp, lin_piece hs hj]
  have hends : ∀ a b, extrap.getD (0, 0) = (a, b) →
      (∀ t, t ≤ x.getD 0 0 → p.call t = if a = 0 then y.getD 0 0 else lineThrough x y 0 t) ∧
        (∀ t, x.getD (x.length - 1) 0 ≤ t → p.call t =
          if b = 0 then y.getD (x.length - 1) 0 else lineThrough x y (x.length - 2) t) := by
    intro a b hab
    have hab' : extrap = some (a, b) ∨ (extrap = none ∧ a = 1 - 1 ∧ b = 1 - 1) := by
      cases extrap with
      | none => right; cases hab; exact ⟨rfl, rfl, rfl⟩
      | some q => left; simpa using hab
    obtain ⟨e1, e2, -⟩ := C28_extrapolation hinv hS hs hok hab'
    obtain ⟨j, hj⟩ : ∃ j, x.length = j + 2 := ⟨x.length - 2, by omega⟩
    -- the derivatives of order two and more vanish
    have hlin : ∀ i, i + 1 < x.length → ∀ c (k : ℕ), 2 ≤ k → pieceDeriv p (i + 1) c k = 0 := by
      intro i hi c k hk
      unfold pieceDeriv
      rw [hp, truncEnds_inner hi, polyDeriv_eq, taylorCoeff_eq_zero _ _ _ (by rw [inner_length]; omega), smul_zero]
    have hone : ∀ i, i + 1 < x.length → ∀ c t, ∀ b : ℕ, ∑ k ∈ range (b + 1), ((t - c) ^ k / (Nat.factorial k : K)) •
        pieceDeriv p (i + 1) c k = if b = 0 then pieceVal p (i + 1) c
          else pieceVal p (i + 1) c + (t - c) • pieceDeriv p (i + 1) c 1 := by
      intro i hi c t b
      have h0 : pieceDeriv p (i + 1) c 0 = pieceVal p (i + 1) c := by
        unfold pieceDeriv pieceVal; rw [polyDeriv_zero]
      by_cases hb : b = 0
      · subst hb; rw [if_pos rfl, sum_range_one, h0]; simp
      · obtain ⟨b', rfl⟩ : ∃ b', b = b' + 1 := ⟨b - 1, by omega⟩
        rw [if_neg hb, sum_range_succ', sum_range_succ', sum_eq_zero]
        · rw [h0]; simp [add_comm]
        · intro k _; rw [hlin i hi c _ (by omega), smul_zero]
    have hd : ∀ i, i + 1 < x.length → ∀ c, pieceDeriv p (i + 1) c 1 =
        (1 / (x.getD (i + 1) 0 - x.getD i 0)) • (y.getD (i + 1) 0 - y.getD i 0) := by
      intro i hi c
      unfold pieceDeriv
      rw [hp, truncEnds_inner hi]
      have hi : inner 1 x y (zlin y) i = [y.getD i 0, (1 / width x i ^ (0 + 1)) • zlin y (i * 1 + 0)] := rfl
      rw [hi, polyDeriv_eq]
      simp only [taylorCoeff, List.length_cons, List.length_nil, zero_add, Nat.reduceAdd, sum_range_succ, sum_range_zero, zlin, width]
      simp
    refine ⟨fun t ht => ?_, fun t ht => ?_⟩
    · rw [e1 t ht, hone 0 (by omega), hp, lin_piece hs (by omega), hd 0 (by omega)]
      have : lineThrough x y 0 (x.getD 0 0) = y.getD 0 0 := by simp [lineThrough]
      rw [this]
      refine if_congr Iff.rfl rfl ?_
      rw [lineThrough, smul_smul, mul_one_div]
    · have hw : x.getD (j + 1) 0 - x.getD j 0 ≠ 0 := width_ne hs (by omega)
      rw [e2 t ht, hj, show j + 2 - 1 = j + 1 by omega, show j + 2 - 2 = j by omega, hone j (by omega), hp,
        lin_piece hs (by omega), hd j (by omega)]
      have : lineThrough x y j (x.getD (j + 1) 0) = y.getD (j + 1) 0 := by
        rw [lineThrough, div_self hw, one_smul, add_sub_cancel]
      rw [this]
      refine if_congr Iff.rfl rfl ?_
      have h2 : y.getD (j + 1) 0 = y.getD j 0 + (1 : K) • (y.getD (j + 1) 0 - y.getD j 0) := by
        rw [one_smul, add_sub_cancel]
      rw [lineThrough]
      have h3 : y.getD j 0 + ((t - x.getD j 0) / (x.getD (j + 1) 0 - x.getD j 0)) • (y.getD (j + 1) 0 - y.getD j 0) =
          y.getD j 0 + (1 : K) • (y.getD (j + 1) 0 - y.getD j 0) +
          ((t - x.getD (j + 1) 0) * (1 / (x.getD (j + 1) 0 - x.getD j 0))) • (y.getD (j + 1) 0 - y.getD j 0) := by
        rw [add_assoc, ← add_smul]
        congr 2
        field_simp
        ring
      rw [h3, ← h2, smul_smul]
  refine ⟨hwf, hxk, hdeg, fun he => ⟨fun t ht => ?_, fun t ht => ?_, hbet⟩, hbet, fun a b hab => hends a b (by rw [hab]; rfl)⟩
  · rw [(hends 0 0 (by rw [he]; rfl)).1 t ht, if_pos rfl]
  · rw [(hends 0 0 (by rw [he]; rfl)).2 t ht, if_pos rfl]

/-- The value of a spline result at `t` (used in examples). -/
def SplineOut.at [FloorRing K] : SplineOut K V → K → Except PyErr V
  | .pw p, t => .ok (p.call t)
  | .per p, t => p.call t

/-- Value and derivatives. -/
def SplineOut.atN [FloorRing K] : SplineOut K V → K → ℕ → Except PyErr (List V)
  | .pw p, t, nd => .ok (p.callN t nd)
  | .per p, t, nd => p.callN t nd

/-- Non-trivial instances. -/
example : ((pline (V := ℚ) (adjInv ℚ) (exactScipy ℚ) [0, 1, 3] [2, 4, -2]).bind fun o =>
      [(-5 : ℚ), 0, 1/2, 1, 2, 3, 7].mapM o.at) = .ok [2, 2, 3, 4, 1, -2, -2] ∧
    ((pline (V := ℚ) (adjInv ℚ) (exactScipy ℚ) [0, 1, 3] [2, 4, -2] (some (1, 1))).bind fun o =>
      [(-5 : ℚ), 0, 1/2, 1, 2, 3, 7].mapM o.at) = .ok [-8, 2, 3, 4, 1, -2, -14] := by decide +kernel

/-- Finding: the slope reported by a periodic polyline at the start of the period is 0, because the
extrapolation pieces are truncated after `PerPwPoly.new` made them periodic (pwpoly.py:933) and a knot belongs
to the piece left of it.  Here both neighbouring slopes are nonzero (1 and -1). -/
theorem finding_periodic_pline_slope :
    ((pline (V := ℚ) (adjInv ℚ) (exactScipy ℚ) [0, 1, 2] [0, 1, 0] none true).bind fun o =>
      [(0 : ℚ), 1/2, 3/2, 2].mapM fun t => o.atN t 1) = .ok [[0, 0], [1/2, 1], [1/2, -1], [0, 0]] := by
  decide +kernel

/-- Non-trivial instances of the hypotheses of C24, C25, C28: the parabola through three points with a given
initial slope (the continuous slope at the middle knot is -1). -/
example : ((spline (V := ℚ) (adjInv ℚ) (exactScipy ℚ) [0, 1, 3] [0, 1, 1] 2 [some 3]).bind fun o =>
      [(0 : ℚ), 1, 3].mapM fun t => o.atN t 1) = .ok [[0, 3], [1, -1], [1, 1]] := by decide +kernel

/-- Cubic between two points, slopes given. -/
example : ((spline (V := ℚ) (adjInv ℚ) (exactScipy ℚ) [0, 2] [1, 5] 3 [some 3] [some 7]).bind fun o =>
      [(0 : ℚ), 1, 2].mapM fun t => o.atN t 1) = .ok [[1, 3], [2, 1/2], [5, 7]] := by decide +kernel

end Npplus
