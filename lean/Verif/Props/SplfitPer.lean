import Verif.Lemmas.SplfitPerCore
import Verif.Props.SplfitCost

/-!
# C33, C34, C35: `splfit`, periodic
-/

set_option linter.unusedSectionVars false

namespace Npplus
open Spec Finset Fit

variable {K : Type} [Field K] [LinearOrder K] [IsStrictOrderedRing K] [FloorRing K] {m : ℕ}
  {S : Scipy K} {xk x : List K} {y : List (Fin m → K)}
  {sigy : Option (List (Fin m → K))} {n : ℕ} {ncArg : Option ℤ} {lo hi : List (Fin m → K)} {per : Bool}
  {extrap : Option (ℕ × ℕ)} {out : SplineOut K (Fin m → K)} {cost : Cost K m}

/-- **C33**, periodic — when `splfit(…, per=True)` with increasing knots returns, the result is a PerPwPoly of degree `n` on
the knots `xk`, with the period `xk[-1]-xk[0]`; the derivatives of order `0..nc` are continuous at every interior knot, and
those at the end of the period agree with those at its start. -/
theorem C33_periodic (hS : ScipyOK S) (hs : xk.Pairwise (· < ·))
    (h : splfit S xk x y sigy n ncArg lo hi true extrap = .ok (out, cost)) :
    ∃ P nc, ∃ f : K → Fin m → K, out = .per P ∧ WF P.base ∧ P.base.xk = xk ∧ P.base.deg = n ∧
      (ncArg = none ∧ nc + 1 = n ∨ ncArg = some (nc : ℤ)) ∧ nc < n ∧ lo = [] ∧ hi = [] ∧ extrap = none ∧
      (∀ t, P.call t = .ok (f t)) ∧ (∀ t (k : ℤ), f (t + k * (xk.getD (xk.length - 1) 0 - xk.getD 0 0)) = f t) ∧
      (∀ j, j + 1 < xk.length → ∀ t, xk.getD j 0 < t → t < xk.getD (j + 1) 0 → f t = pieceVal P.base (j + 1) t) ∧
      (∀ j k, 1 ≤ j → j + 1 < xk.length → k ≤ nc → MatchAt P.base k j) ∧
      ∀ k ≤ nc, pieceDeriv P.base (xk.length - 1) (xk.getD (xk.length - 1) 0) k = pieceDeriv P.base 1 (xk.getD 0 0) k := by
  obtain ⟨P, f, nc, hout, hPf, h2, hwf, hbx, hbn, hor, hnc, hlo, hhi, hex, hpw, hsm, -⟩ := splfit_per_core hS hs h
  have hR := fun j k => pieceDeriv_rightEnd P.base j k
  have hL := fun j k => pieceDeriv_leftEnd P.base j k
  rw [hbx] at hR hL
  refine ⟨P, nc, f, hout, hwf, hbx, by unfold PwPoly.deg; omega, hor, hnc, hlo, hhi, hex, hPf, hpw.1, ?_, ?_, ?_⟩
  · intro j hj t h0 h1
    rw [(hpw.2 j hj).2 t (Or.inl h0) h1.le (h1.trans_le (pw_getD_le hs (show j + 1 ≤ xk.length - 1 by omega) (by omega)))]
    unfold pieceVal origin
    rw [Nat.add_sub_cancel, hbx]
  · intro j k hj hj1 hk
    obtain ⟨j, rfl⟩ : ∃ i, j = i + 1 := ⟨j - 1, by omega⟩
    unfold MatchAt
    rw [hbx, hR, hL]
    have := hsm j (by omega) k hk
    rw [perJump, sub_eq_zero, Nat.mod_eq_of_lt (by omega)] at this
    rw [this]
  · intro k hk
    have := hsm (xk.length - 2) (by omega) k hk
    rw [perJump, sub_eq_zero, show xk.length - 2 + 1 = xk.length - 1 by omega, Nat.mod_self] at this
    have r := hR (xk.length - 2) k
    rw [show xk.length - 2 + 1 = xk.length - 1 by omega] at r
    have l := hL 0 k
    rw [r, l]
    exact congrArg _ this.symm

/-- **C34**, periodic — the result minimises `chi2` among all periodic piecewise polynomials of degree at most `n` on the
knots `xk` whose first `nc` derivatives are continuous everywhere (also from one period to the next): for every such
competitor `g`, `chi2(g) = chi2(result) + Σ ((g-result)/sigy)²`; the result is one of them. -/
theorem C34_periodic (hS : ScipyOK S) (hs : xk.Pairwise (· < ·))
    (h : splfit S xk x y sigy n ncArg lo hi true extrap = .ok (out, cost)) :
    ∃ P nc, ∃ f : K → Fin m → K, out = .per P ∧ (∀ t, P.call t = .ok (f t)) ∧
      (ncArg = none ∧ nc + 1 = n ∨ ncArg = some (nc : ℤ)) ∧
      (∃ C, IsPwPer xk n C f ∧ ∀ j, j + 1 < xk.length → ∀ k ≤ nc, perJump xk C j k = 0) ∧
      ∀ C g, IsPwPer xk n C g → (∀ j, j + 1 < xk.length → ∀ k ≤ nc, perJump xk C j k = 0) →
        chi2 x y (sigy.getD (y.map fun _ _ => 1)) g = chi2 x y (sigy.getD (y.map fun _ _ => 1)) f +
          (∑ t ∈ range x.length, ∑ i, ((g (x.getD t 0) i - f (x.getD t 0) i) /
            (sigy.getD (y.map fun _ _ => 1)).getD t 0 i) ^ 2) ∧
        chi2 x y (sigy.getD (y.map fun _ _ => 1)) f ≤ chi2 x y (sigy.getD (y.map fun _ _ => 1)) g := by
  obtain ⟨P, f, nc, hout, hPf, h2, hwf, hbx, hbn, hor, hnc, hlo, hhi, hex, hpw, hsm, -, -, -, -, key⟩ := splfit_per_core hS hs h
  refine ⟨P, nc, f, hout, hPf, hor, ⟨_, hpw, hsm⟩, fun C g hg hgs => ?_⟩
  have k1 := key C g hg
  rw [sum_eq_zero (s := range (xk.length - 1)), sub_zero] at k1
  rotate_left
  · intro j hj
    refine sum_eq_zero fun k hk => sum_eq_zero fun i _ => ?_
    have hj := mem_range.mp hj
    have hk := mem_range.mp hk
    rw [hgs j (by omega) k (by omega), Pi.zero_apply, mul_zero]
  refine ⟨k1, ?_⟩
  rw [k1]
  exact le_add_of_nonneg_right (sum_nonneg fun t _ => sum_nonneg fun i _ => sq_nonneg _)

/-- **C35**, periodic (partial: opposite sign, and only up to the factor `(dx_j/dx_{j+1})^k`) — for every periodic piecewise
polynomial `g` of degree `n` on the knots, with arbitrary jumps of its coefficients,
`chi2(g) = chi2(result) + Σ((g-result)/sigy)² - Σ (dx_j/dx_{j+1})^k·cost[k][j]·jump`.  So the returned `cost[k]` is (minus)
the derivative of `chi2` with respect to the jump of the `k`-th coefficient only when the two neighbouring intervals have
the same width or `k=0`; see `C35_periodic_refuted`. -/
theorem C35_periodic_partial (hS : ScipyOK S) (hs : xk.Pairwise (· < ·))
    (h : splfit S xk x y sigy n ncArg lo hi true extrap = .ok (out, cost)) :
    ∃ P nc, ∃ f : K → Fin m → K, out = .per P ∧ (∀ t, P.call t = .ok (f t)) ∧
      (ncArg = none ∧ nc + 1 = n ∨ ncArg = some (nc : ℤ)) ∧
      cost.inner.length = nc + 1 ∧ (∀ k ≤ nc, (cost.inner.getD k []).length = xk.length - 1) ∧ cost.lo = [] ∧ cost.hi = [] ∧
      ∀ C g, IsPwPer xk n C g →
        chi2 x y (sigy.getD (y.map fun _ _ => 1)) g = chi2 x y (sigy.getD (y.map fun _ _ => 1)) f +
          ∑ t ∈ range x.length, ∑ i, ((g (x.getD t 0) i - f (x.getD t 0) i) / (sigy.getD (y.map fun _ _ => 1)).getD t 0 i) ^ 2 -
          ∑ j ∈ range (xk.length - 1), ∑ k ∈ range (nc + 1), ∑ i,
            ((xk.getD (j + 1) 0 - xk.getD j 0) /
              (xk.getD ((j + 1) % (xk.length - 1) + 1) 0 - xk.getD ((j + 1) % (xk.length - 1)) 0)) ^ k *
            (cost.inner.getD k []).getD j 0 i * perJump xk C j k i := by
  obtain ⟨P, f, nc, hout, hPf, h2, hwf, hbx, hbn, hor, hnc, hlo, hhi, hex, hpw, hsm, c1, c2, c3, c4, key⟩ := splfit_per_core hS hs h
  exact ⟨P, nc, f, hout, hPf, hor, c1, c2, c3, c4, key⟩

/-- **C35**, periodic, equal knots (partial: opposite sign) — when the knots are equidistant the returned cost is (minus)
the derivative of `chi2` with respect to the jumps, as in the non periodic case. -/
theorem C35_periodic_equidistant_partial (hS : ScipyOK S) (hs : xk.Pairwise (· < ·))
    {d : K} (hd : ∀ j, j + 1 < xk.length → xk.getD (j + 1) 0 - xk.getD j 0 = d)
    (h : splfit S xk x y sigy n ncArg lo hi true extrap = .ok (out, cost)) :
    ∃ P nc, ∃ f : K → Fin m → K, out = .per P ∧ (∀ t, P.call t = .ok (f t)) ∧
      (ncArg = none ∧ nc + 1 = n ∨ ncArg = some (nc : ℤ)) ∧
      ∀ C g, IsPwPer xk n C g →
        chi2 x y (sigy.getD (y.map fun _ _ => 1)) g = chi2 x y (sigy.getD (y.map fun _ _ => 1)) f +
          ∑ t ∈ range x.length, ∑ i, ((g (x.getD t 0) i - f (x.getD t 0) i) / (sigy.getD (y.map fun _ _ => 1)).getD t 0 i) ^ 2 -
          ∑ j ∈ range (xk.length - 1), ∑ k ∈ range (nc + 1), ∑ i, (cost.inner.getD k []).getD j 0 i * perJump xk C j k i := by
  obtain ⟨P, f, nc, hout, hPf, h2, hwf, hbx, hbn, hor, hnc, hlo, hhi, hex, hpw, hsm, c1, c2, c3, c4, key⟩ := splfit_per_core hS hs h
  refine ⟨P, nc, f, hout, hPf, hor, fun C g hg => (key C g hg).trans ?_⟩
  congr 1
  refine sum_congr rfl fun j hj => sum_congr rfl fun k _ => sum_congr rfl fun i _ => ?_
  have hj := mem_range.mp hj
  have hm := Nat.mod_lt (j + 1) (show 0 < xk.length - 1 by omega)
  have h1 : Spl.width xk j = d := hd j (by omega)
  have h2' : Spl.width xk ((j + 1) % (xk.length - 1)) = d := hd _ (by omega)
  have hdne : d ≠ 0 := h1 ▸ Spl.width_ne hs (by omega)
  rw [h1, h2', div_self hdne, one_pow, one_mul]

end Npplus
