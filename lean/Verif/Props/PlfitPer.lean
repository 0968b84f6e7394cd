import Verif.Props.Plfit

/-!
# C32 (periodic), C36: `plfit`
-/

set_option linter.unusedSectionVars false

namespace Npplus
open Spec Finset Fit Spl

variable {K : Type} [Field K] [LinearOrder K] [IsStrictOrderedRing K] [FloorRing K]
  {inv : InvFun K} {S : Scipy K} {H : SolveH K} {x : List K}

/-- A periodic `pline` between the knots. -/
theorem pline_per {V : Type} [AddCommGroup V] [Module K V] {y : List V} {out : SplineOut K V} (hinv : InvOK inv)
    (hS : ScipyOK S) (hs : x.Pairwise (· < ·)) (hw : y.getD (x.length - 1) 0 = y.getD 0 0) (hy : y.length = x.length)
    (h : pline inv S x y none true = .ok out) :
    ∃ P, out = .per P ∧ WF P.base ∧ P.base.xk = x ∧ P.base.deg = 1 ∧
      P.period = some (x.getD (x.length - 1) 0 - x.getD 0 0) ∧
      (∀ t (m : ℤ), P.call (t + m * (x.getD (x.length - 1) 0 - x.getD 0 0)) = P.call t) ∧
      ∀ j, j + 1 < x.length → ∀ t, x.getD j 0 ≤ t → t ≤ x.getD (j + 1) 0 → P.call t = .ok (lineThrough x y j t) := by
  unfold pline at h
  have hc := spline_checks hs h
  obtain ⟨hx, -, hn, -, -, -, h'⟩ := hc
  cases hq : Spl.periodic inv S x y 1 with
  | error err => simp [hq, Except.map] at h'
  | ok P =>
  simp [hq, Except.map] at h'
  subst h'
  obtain ⟨per, hp1, hp2, hp3, hwf, hxk, hdeg, hcall, hkn, hlast, hin, -, -⟩ := C27_periodic hinv hS hs h
  obtain ⟨z, e, y', hy', hbase, -, sys, -⟩ := periodic_ok hinv hS hs hx hy hn hq
  have hyy : ∀ k, y'.getD k 0 = y.getD k 0 := by
    intro k
    rw [hy']
    by_cases hk : k = y.length - 1
    · subst hk
      rw [List.getD_eq_getElem _ _ (by rw [List.length_set]; omega), List.getElem_set_self, hy, hw]
    · rcases Nat.lt_or_ge k y.length with h1 | h1
      · rw [List.getD_eq_getElem _ _ (by rw [List.length_set]; omega), List.getElem_set_ne (by omega),
          ← List.getD_eq_getElem _ 0]
      · rw [List.getD_eq_default _ _ (by rw [List.length_set]; omega), List.getD_eq_default _ _ h1]
  refine ⟨P, rfl, hwf, hxk, hdeg, by rw [hp1, hp2], by rw [← hp2]; exact hcall, fun j hj t h1 h2 => ?_⟩
  have hwj := width_pos hs hj
  unfold width at hwj
  have hlast' : P.call (x.getD (x.length - 1) 0) = .ok (y.getD (x.length - 1) 0) := by rw [hlast, hw]
  have hkn' : ∀ j < x.length, P.call (x.getD j 0) = .ok (y.getD j 0) := by
    intro j hj
    rcases Nat.lt_or_ge (j + 1) x.length with h | h
    · exact hkn j h
    · rw [show j = x.length - 1 by omega]; exact hlast'
  rcases eq_or_lt_of_le h1 with h1 | h1
  · rw [← h1, hkn' j (by omega)]; simp [lineThrough]
  rcases eq_or_lt_of_le h2 with h2 | h2
  · rw [h2, hkn' (j + 1) (by omega), lineThrough, div_self hwj.ne', one_smul, add_sub_cancel]
  have hpc := between_piece hs hj h1 h2.le
  rw [hin t ((Fit.first_le hs (by rw [List.getD_eq_getElem _ _ (by omega)]; exact List.getElem_mem _)).trans_lt h1)
    (h2.trans_le (Fit.le_last hs (by rw [List.getD_eq_getElem _ _ (by omega)]; exact List.getElem_mem _))) _ hpc, hbase]
  congr 1
  have hzz : inner 1 x y' z j = inner 1 x y (zlin y) j := by
    have := sys.val j (by omega)
    simp only [sum_range_one, mul_one, add_zero, hyy] at this
    simp only [inner, List.range_one, List.map_cons, List.map_nil, zero_add, mul_one, add_zero, hyy, this, zlin]
  have h3 := lin_piece (e := e) (y := y) hs hj t
  unfold pieceVal at h3 ⊢
  rw [truncEnds_inner hj] at h3 ⊢
  rw [hzz]
  exact h3


variable {m : ℕ} {xk : List K} {y : List (Fin m → K)}
  {sigy : Option (List (Fin m → K))} {lo hi : List (Fin m → K)} {per : Bool} {extrap : Option (ℕ × ℕ)}
  {out : SplineOut K (Fin m → K)}

/-- **C32**, periodic — `plfit(…, per=True)` with increasing knots: the result is periodic with the period
`xk[-1]-xk[0]`, a polyline with the knots `xk` on this interval, and its `chi2` is the smallest of all periodic
polylines with these knots. -/
theorem C32_periodic (hinv : InvOK inv) (hS : ScipyOK S) (hs : xk.Pairwise (· < ·))
    (_hsig : ∀ l, sigy = some l → ∀ v ∈ l, ∀ i, v i ≠ 0)
    (h : plfit inv S H xk x y sigy lo hi true extrap = .ok out) :
    ∃ P, ∃ f : K → Fin m → K, out = .per P ∧ (∀ t, P.call t = .ok (f t)) ∧ WF P.base ∧ P.base.xk = xk ∧ P.base.deg = 1 ∧
      (∀ t (k : ℤ), f (t + k * (xk.getD (xk.length - 1) 0 - xk.getD 0 0)) = f t) ∧ IsPolyline xk f ∧
      ∀ g : K → Fin m → K, IsPolyline xk g → (∀ t (k : ℤ), g (t + k * (xk.getD (xk.length - 1) 0 - xk.getD 0 0)) = g t) →
        chi2 x y (sigy.getD (y.map fun _ _ => 1)) g = chi2 x y (sigy.getD (y.map fun _ _ => 1)) f +
          (∑ t ∈ range x.length, ∑ i, ((g (x.getD t 0) i - f (x.getD t 0) i) /
            (sigy.getD (y.map fun _ _ => 1)).getD t 0 i) ^ 2) ∧
        chi2 x y (sigy.getD (y.map fun _ _ => 1)) f ≤ chi2 x y (sigy.getD (y.map fun _ _ => 1)) g := by
  obtain ⟨s, yk, hset, -, -, hy, hsg, hyk, hpl⟩ := plfit_ok h
  obtain ⟨h2, e1, e2, e3, hper, -⟩ := setup_ok hset hs
  obtain ⟨-, -, hex, hxk, hsx⟩ := hper rfl
  rw [hxk] at hyk hpl
  rw [e3, hex] at hpl
  set x0 := xk.getD 0 0 with hx0
  set xl := xk.getD (xk.length - 1) 0 with hxl
  have hpos : 0 < xl - x0 := by
    rw [sub_pos, hx0, hxl, List.getD_eq_getElem _ _ (by omega), List.getD_eq_getElem _ _ (by omega)]
    exact List.pairwise_iff_getElem.mp hs 0 (xk.length - 1) (by omega) (by omega) (by omega)
  set Y : List (Fin m → K) := (List.range xk.length).map fun k i => yk i k with hY
  have hYk : ∀ k < xk.length, Y.getD k 0 = fun i => yk i k := by
    intro k hk; rw [hY, List.getD_eq_getElem _ _ (by simpa using hk)]; simp
  have hYw : Y.getD (xk.length - 1) 0 = Y.getD 0 0 := by
    rw [hYk _ (by omega), hYk _ (by omega)]
    funext i
    exact (plfitter_per hS h2 (hyk i)).1
  obtain ⟨P, rfl, hwf, hpx, hdeg, hperiod, hcall, hline⟩ := pline_per hinv hS hs hYw (by simp [hY]) hpl
  set f : K → Fin m → K := fun t => P.base.call (P.base.xk.getD 0 0 + pmod (t - P.base.xk.getD 0 0) (xl - x0)) with hf
  have hPf : ∀ t, P.call t = .ok (f t) := by
    intro t; unfold PerPwPoly.call; rw [hperiod]
  have hfline : ∀ j, j + 1 < xk.length → ∀ t, xk.getD j 0 ≤ t → t ≤ xk.getD (j + 1) 0 → f t = lineThrough xk Y j t := by
    intro j hj t h1 h2
    have := hline j hj t h1 h2
    rw [hPf] at this
    exact Except.ok.inj this
  have hfper : ∀ t (k : ℤ), f (t + k * (xl - x0)) = f t := by
    intro t k
    have := hcall t k
    rw [hPf, hPf] at this
    exact Except.ok.inj this
  have hpoly : IsPolyline xk f := lineThrough_isPolyline hfline
  have hknot : ∀ k < xk.length, f (xk.getD k 0) = fun i => yk i k := by
    intro k hk
    rcases Nat.lt_or_ge (k + 1) xk.length with hk1 | hk1
    · rw [hfline k hk1 _ le_rfl (width_pos hs hk1 |> sub_pos.mp).le, lineThrough, sub_self, zero_div, zero_smul, add_zero, hYk k hk]
    · obtain ⟨j, rfl⟩ : ∃ j, k = j + 1 := ⟨k - 1, by omega⟩
      have hw := width_pos hs (show j + 1 < xk.length by omega)
      unfold width at hw
      rw [hfline j hk _ (sub_pos.mp hw).le le_rfl, lineThrough, div_self hw.ne', one_smul, add_sub_cancel, hYk _ hk]
  refine ⟨P, f, rfl, hPf, hwf, hpx, hdeg, hfper, hpoly, fun g hg hgper => ?_⟩
  have hlen : s.x.length = x.length := by rw [hsx, List.length_map]
  have hget : ∀ t < x.length, s.x.getD t 0 = pmod (x.getD t 0 - x0) (xl - x0) + x0 := by
    intro t ht
    rw [hsx, List.getD_eq_getElem _ _ (by simpa using ht), List.getElem_map, List.getD_eq_getElem _ _ ht]
  have hmap : ∀ q : K → Fin m → K, (∀ t (k : ℤ), q (t + k * (xl - x0)) = q t) → ∀ t < x.length,
      q (s.x.getD t 0) = q (x.getD t 0) := by
    intro q hq t ht
    rw [hget t ht, ← hq (pmod (x.getD t 0 - x0) (xl - x0) + x0) ⌊(x.getD t 0 - x0) / (xl - x0)⌋]
    congr 1
    unfold pmod
    ring
  have hchi : ∀ q : K → Fin m → K, (∀ t (k : ℤ), q (t + k * (xl - x0)) = q t) →
      chi2 x y (sigy.getD (y.map fun _ _ => 1)) q = chi2 s.x y (sigy.getD (y.map fun _ _ => 1)) q := by
    intro q hq
    unfold chi2
    rw [hlen]
    refine sum_congr rfl fun t ht => ?_
    rw [hmap q hq t (mem_range.mp ht)]
  have hr : ∀ t < s.x.length, xk.getD 0 0 ≤ s.x.getD t 0 ∧ s.x.getD t 0 ≤ xk.getD (xk.length - 1) 0 := by
    intro t ht
    rw [hget t (by omega)]
    have a := pmod_nonneg (x.getD t 0 - x0) hpos
    have b := pmod_lt (x.getD t 0 - x0) hpos
    constructor
    · rw [← hx0]; linarith
    · rw [← hxl]; linarith
  have key : chi2 x y (sigy.getD (y.map fun _ _ => 1)) g = chi2 x y (sigy.getD (y.map fun _ _ => 1)) f +
      ∑ t ∈ range x.length, ∑ i, ((g (x.getD t 0) i - f (x.getD t 0) i) /
        (sigy.getD (y.map fun _ _ => 1)).getD t 0 i) ^ 2 := by
    rw [hchi g hgper, hchi f hfper, chi2_identity hpoly hg hs h2 hr ?_, hlen]
    · congr 1
      refine sum_congr rfl fun t ht => ?_
      rw [hmap g hgper t (mem_range.mp ht), hmap f hfper t (mem_range.mp ht)]
    intro i w q hw hq
    obtain rfl : w = _ := funext hw
    obtain rfl : q = _ := funext hq
    have hlastq : ∀ q : K → Fin m → K, (∀ t (k : ℤ), q (t + k * (xl - x0)) = q t) → q xl = q x0 := by
      intro q hq
      rw [← hq x0 1]
      congr 1
      push_cast; ring
    have hcomp := (plfitter_per hS h2 (hyk i)).2 (fun k => g (xk.getD k 0) i - f (xk.getD k 0) i) (by
      rw [← hxl, ← hx0, hlastq g hgper, hlastq f hfper])
    have hkv : ∀ k < xk.length, yk i k = f (xk.getD k 0) i := fun k hk => (congrFun (hknot k hk) i).symm
    rw [hlen]
    refine Eq.trans ?_ hcomp
    refine congrArg₂ HAdd.hAdd (sum_congr rfl fun k hk => ?_) (sum_congr rfl fun k hk => ?_)
    · rw [hkv k (mem_range.mp hk)]
    · have := mem_range.mp hk
      rw [hkv k (by omega), hkv (k + 1) (by omega)]
  refine ⟨key, ?_⟩
  rw [key]
  exact le_add_of_nonneg_right (sum_nonneg fun t _ => sum_nonneg fun i _ => sq_nonneg _)

end Npplus
