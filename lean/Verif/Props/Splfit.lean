import Verif.Lemmas.SplfitCore

/-!
# C33, C34, C35: `splfit`, not periodic
-/

set_option linter.unusedSectionVars false

namespace Npplus
open Spec Finset Fit

variable {K : Type} [Field K] [LinearOrder K] [IsStrictOrderedRing K] [FloorRing K] {m : ℕ}
  {S : Scipy K} {xk x : List K} {y : List (Fin m → K)}
  {sigy : Option (List (Fin m → K))} {n : ℕ} {ncArg : Option ℤ} {lo hi : List (Fin m → K)} {per : Bool}
  {extrap : Option (ℕ × ℕ)} {out : SplineOut K (Fin m → K)} {cost : Cost K m}

/-- The derivatives at the right end of an interval. -/
theorem pieceDeriv_rightEnd {V : Type} [AddCommGroup V] [Module K V] (p : PwPoly K V) (j k : ℕ) :
    pieceDeriv p (j + 1) (p.xk.getD (j + 1) 0) k = (Nat.factorial k : K) • rightCoeff p.xk (fun j => piece p (j + 1)) j k := by
  unfold pieceDeriv rightCoeff origin
  rw [polyDeriv_eq, Nat.add_sub_cancel]

theorem pieceDeriv_leftEnd {V : Type} [AddCommGroup V] [Module K V] (p : PwPoly K V) (j k : ℕ) :
    pieceDeriv p (j + 1) (p.xk.getD j 0) k = (Nat.factorial k : K) • (piece p (j + 1)).getD k 0 := by
  have := Spl.pieceDeriv_origin p (j + 1) k
  rwa [origin, Nat.add_sub_cancel] at this

/-- **C33** — with increasing knots `xk`: when `splfit` returns, the result is a PwPoly of degree `n` on the knots `xk'`
(`xk`, extended to the data range); `nc` is its argument or `n-1`; the derivatives of order `0..nc` are continuous at every
interior knot; the derivatives at the first (last) given knot have the values prescribed by `lo` (`hi`), `lo[k]` being the
`k`-th derivative over `k!`; beyond the end knots the derivatives up to `extrap` (default `nc`) are continued and the others
vanish. -/
theorem C33_constraints (hS : ScipyOK S) (hs : xk.Pairwise (· < ·))
    (h : splfit S xk x y sigy n ncArg lo hi false extrap = .ok (out, cost)) :
    ∃ p xk' nc, out = .pw p ∧ FitKnots xk x xk' ∧ WF p ∧ p.xk = xk' ∧ p.deg = n ∧
      (ncArg = none ∧ nc + 1 = n ∨ ncArg = some (nc : ℤ)) ∧ nc < n ∧
      (∀ j k, 1 ≤ j → j + 1 < xk'.length → k ≤ nc → MatchAt p k j) ∧
      (∀ k < lo.length, xk'.getD 0 0 = xk.getD 0 0 ∧ pieceDeriv p 1 (xk.getD 0 0) k = (Nat.factorial k : K) • lo.getD k 0) ∧
      (∀ k < hi.length, xk'.getD (xk'.length - 1) 0 = xk.getD (xk.length - 1) 0 ∧
        pieceDeriv p (xk'.length - 1) (xk.getD (xk.length - 1) 0) k = (Nat.factorial k : K) • hi.getD k 0) ∧
      (∀ k, (k ≤ (extrap.getD (nc, nc)).1 → MatchAt p k 0) ∧
        ((extrap.getD (nc, nc)).1 < k → pieceDeriv p 0 (xk'.getD 0 0) k = 0)) ∧
      (∀ k ≤ n, (k ≤ (extrap.getD (nc, nc)).2 → MatchAt p k (xk'.length - 1)) ∧
        ((extrap.getD (nc, nc)).2 < k → pieceDeriv p xk'.length (xk'.getD (xk'.length - 1) 0) k = 0)) := by
  obtain ⟨p, xk', nc, hout, hfk, h2', hwf, hpx, hpn, hor, hnc, hlo, hhi, hlo0, hhi0, hp0, hpL, hpw, hsm, hend, -⟩ := splfit_core hS hs h
  have hR := fun j k => pieceDeriv_rightEnd p j k
  have hL := fun j k => pieceDeriv_leftEnd p j k
  have h0 : ∀ k, pieceDeriv p 0 (xk'.getD 0 0) k = (Nat.factorial k : K) • (piece p 0).getD k 0 := by
    intro k
    have := Spl.pieceDeriv_origin p 0 k
    rwa [origin, Nat.zero_sub, hpx] at this
  rw [hpx] at hR hL
  refine ⟨p, xk', nc, hout, hfk, hwf, hpx, by unfold PwPoly.deg; omega, hor, hnc, ?_, ?_, ?_, ?_, ?_⟩
  · intro j k hj hj1 hk
    obtain ⟨j, rfl⟩ : ∃ i, j = i + 1 := ⟨j - 1, by omega⟩
    unfold MatchAt
    rw [hpx, hR, hL]
    have := hsm j (by omega) k hk
    rw [jump, sub_eq_zero] at this
    rw [this]
  · intro k hk
    have e := hlo0 (by intro hc; rw [hc] at hk; simp at hk)
    refine ⟨e, ?_⟩
    rw [← e, hL 0 k]
    exact congrArg _ (hend.1 k hk)
  · intro k hk
    have e := hhi0 (by intro hc; rw [hc] at hk; simp at hk)
    refine ⟨e, ?_⟩
    have := hR (xk'.length - 2) k
    rw [show xk'.length - 2 + 1 = xk'.length - 1 by omega] at this
    rw [← e, this]
    exact congrArg _ (hend.2 k hk)
  · intro k
    refine ⟨fun hk => ?_, fun hk => ?_⟩
    · unfold MatchAt
      rw [hpx, h0, hL, hp0, if_pos hk]
    · rw [h0, hp0, if_neg (by omega), smul_zero]
  · intro k hkn
    have hl := hL (xk'.length - 1) k
    rw [show xk'.length - 1 + 1 = xk'.length by omega] at hl
    refine ⟨fun hk => ?_, fun hk => ?_⟩
    · unfold MatchAt
      have := hR (xk'.length - 2) k
      rw [show xk'.length - 2 + 1 = xk'.length - 1 by omega] at this
      rw [hpx, this, show xk'.length - 1 + 1 = xk'.length by omega, hl, hpL k hkn, if_pos hk]
    · rw [hl, hpL k hkn, if_neg (by omega), smul_zero]

/-- **C34** — the result minimises `chi2` among all piecewise polynomials of degree at most `n` on the knots of the result
with `nc` continuous derivatives and the prescribed end values: for every competitor `g`,
`chi2(g) = chi2(result) + Σ ((g-result)/sigy)²`; the result itself is one of the competitors; a competitor with the same
`chi2` agrees with the result at every data point. -/
theorem C34_minimal (hS : ScipyOK S) (hs : xk.Pairwise (· < ·))
    (hsig : ∀ l, sigy = some l → ∀ v ∈ l, ∀ i, v i ≠ 0)
    (h : splfit S xk x y sigy n ncArg lo hi false extrap = .ok (out, cost)) :
    ∃ p xk' nc, out = .pw p ∧ FitKnots xk x xk' ∧ (ncArg = none ∧ nc + 1 = n ∨ ncArg = some (nc : ℤ)) ∧
      (lo ≠ [] → xk'.getD 0 0 = xk.getD 0 0) ∧ (hi ≠ [] → xk'.getD (xk'.length - 1) 0 = xk.getD (xk.length - 1) 0) ∧
      (∃ C, IsPwOn xk' n C p.call ∧ SmoothTo xk' nc C ∧ EndValues xk' C lo hi) ∧
      ∀ C g, IsPwOn xk' n C g → SmoothTo xk' nc C → EndValues xk' C lo hi →
        chi2 x y (sigy.getD (y.map fun _ _ => 1)) g = chi2 x y (sigy.getD (y.map fun _ _ => 1)) p.call +
          (∑ t ∈ range x.length, ∑ i, ((g (x.getD t 0) i - p.call (x.getD t 0) i) /
            (sigy.getD (y.map fun _ _ => 1)).getD t 0 i) ^ 2) ∧
        chi2 x y (sigy.getD (y.map fun _ _ => 1)) p.call ≤ chi2 x y (sigy.getD (y.map fun _ _ => 1)) g ∧
        (chi2 x y (sigy.getD (y.map fun _ _ => 1)) g ≤ chi2 x y (sigy.getD (y.map fun _ _ => 1)) p.call →
          ∀ s ∈ x, g s = p.call s) := by
  obtain ⟨s, -, -, -, hy, hsl, -⟩ := splfit_ok h
  obtain ⟨p, xk', nc, hout, hfk, h2', hwf, hpx, hpn, hor, hnc, hlo, hhi, hlo0, hhi0, -, -, hpw, hsm, hend, -, -, -, -, -, key⟩ := splfit_core hS hs h
  refine ⟨p, xk', nc, hout, hfk, hor, hlo0, hhi0, ⟨_, hpw, hsm, hend⟩, fun C g hg hgs hge => ?_⟩
  have k1 := key C g hg
  rw [sum_eq_zero (s := range (xk'.length - 2)), sum_eq_zero (s := range lo.length), sum_eq_zero (s := range hi.length), sub_zero, sub_zero, sub_zero] at k1
  rotate_left
  · intro k hk
    refine sum_eq_zero fun i _ => ?_
    rw [hge.2 k (mem_range.mp hk), sub_self, mul_zero]
  · intro k hk
    refine sum_eq_zero fun i _ => ?_
    rw [hge.1 k (mem_range.mp hk), sub_self, mul_zero]
  · intro j hj
    refine sum_eq_zero fun k hk => sum_eq_zero fun i _ => ?_
    have hj := mem_range.mp hj
    have hk := mem_range.mp hk
    rw [hgs j (by omega) k (by omega), Pi.zero_apply, mul_zero]
  refine ⟨k1, ?_, fun hle s hsx => ?_⟩
  · rw [k1]
    exact le_add_of_nonneg_right (sum_nonneg fun t _ => sum_nonneg fun i _ => sq_nonneg _)
  · rw [k1] at hle
    have h0 : ∑ t ∈ range x.length, ∑ i, ((g (x.getD t 0) i - p.call (x.getD t 0) i) /
            (sigy.getD (y.map fun _ _ => 1)).getD t 0 i) ^ 2 = 0 :=
      le_antisymm (by linarith) (sum_nonneg fun t _ => sum_nonneg fun i _ => sq_nonneg _)
    obtain ⟨t, ht, rfl⟩ := List.getElem_of_mem hsx
    have h1 := (sum_eq_zero_iff_of_nonneg (fun t _ => sum_nonneg fun i _ => sq_nonneg _)).mp h0 t (mem_range.mpr ht)
    funext i
    have h2 := (sum_eq_zero_iff_of_nonneg (fun i _ => sq_nonneg _)).mp h1 i (mem_univ i)
    have h3 := pow_eq_zero_iff (n := 2) (by norm_num) |>.mp h2
    rw [List.getD_eq_getElem _ _ ht] at h3
    rcases div_eq_zero_iff.mp h3 with h4 | h4
    · exact sub_eq_zero.mp h4
    · exfalso
      cases sigy with
      | none =>
        rw [Option.getD_none, List.getD_eq_getElem _ _ (by simp; omega)] at h4
        simp at h4
      | some l =>
        rw [Option.getD_some] at h4 hsl
        rw [List.getD_eq_getElem _ _ (by omega)] at h4
        exact hsig l rfl _ (List.getElem_mem _) i h4

/-- **C35** (partial: the sign of the documentation is wrong, see DESIGN.md; periodic fits: 
DESIGN.md) — for *every* piecewise polynomial `g` of degree `n` on the knots, with arbitrary jumps of its
coefficients at the interior knots and arbitrary end values,
`chi2(g) = chi2(result) + Σ((g-result)/sigy)² - Σ cost·jump`, the jump at a knot being the coefficient on the right minus
the one on the left (at the first knot `lo` is the left one, at the last knot `hi` the right one).  So `-cost` is the
derivative of `chi2` with respect to the jump. -/
theorem C35_cost_partial (hS : ScipyOK S) (hs : xk.Pairwise (· < ·))
    (h : splfit S xk x y sigy n ncArg lo hi false extrap = .ok (out, cost)) :
    ∃ p xk' nc, out = .pw p ∧ FitKnots xk x xk' ∧ (ncArg = none ∧ nc + 1 = n ∨ ncArg = some (nc : ℤ)) ∧
      (∃ C, IsPwOn xk' n C p.call ∧ SmoothTo xk' nc C ∧ EndValues xk' C lo hi) ∧
      cost.inner.length = nc + 1 ∧ (∀ k ≤ nc, (cost.inner.getD k []).length = xk'.length - 2) ∧ cost.lo.length = lo.length ∧
      cost.hi.length = hi.length ∧
      ∀ C g, IsPwOn xk' n C g →
        chi2 x y (sigy.getD (y.map fun _ _ => 1)) g = chi2 x y (sigy.getD (y.map fun _ _ => 1)) p.call +
          ∑ t ∈ range x.length, ∑ i, ((g (x.getD t 0) i - p.call (x.getD t 0) i) / (sigy.getD (y.map fun _ _ => 1)).getD t 0 i) ^ 2 -
          ∑ j ∈ range (xk'.length - 2), ∑ k ∈ range (nc + 1), ∑ i, (cost.inner.getD k []).getD j 0 i * jump xk' C j k i -
          ∑ k ∈ range lo.length, ∑ i, cost.lo.getD k 0 i * ((C 0).getD k 0 i - lo.getD k 0 i) -
          ∑ k ∈ range hi.length, ∑ i, cost.hi.getD k 0 i * (hi.getD k 0 i - rightCoeff xk' C (xk'.length - 2) k i) := by
  obtain ⟨p, xk', nc, hout, hfk, h2', hwf, hpx, hpn, hor, hnc, hlo, hhi, hlo0, hhi0, -, -, hpw, hsm, hend, c1, c2, c3, c4, -, key⟩ := splfit_core hS hs h
  exact ⟨p, xk', nc, hout, hfk, hor, ⟨_, hpw, hsm, hend⟩, c1, c2, c3, c4, key⟩

end Npplus
