import Verif.Lemmas.SplfitCore
import Verif.Props.PwMisc

/-!
# The core of C33, C34, C35: `splfit`, periodic
-/

set_option linter.unusedSectionVars false

namespace Npplus
open Spec Finset Fit

variable {K : Type} [Field K] [LinearOrder K] [IsStrictOrderedRing K] [FloorRing K] {m : ℕ}
  {S : Scipy K} {xk x : List K} {y : List (Fin m → K)}
  {sigy : Option (List (Fin m → K))} {n : ℕ} {ncArg : Option ℤ} {lo hi : List (Fin m → K)} {per : Bool}
  {extrap : Option (ℕ × ℕ)} {out : SplineOut K (Fin m → K)} {cost : Cost K m}

/-- The periodic function of a PerPwPoly made from a PwPoly. -/
theorem perNew_fun {V : Type} [AddCommGroup V] [Module K V] {p : PwPoly K V} (hp : WF p) {P : PerPwPoly K V} (h : PerPwPoly.new p = .ok P) :
    2 ≤ p.xk.length ∧ WF P.base ∧ P.base.xk = p.xk ∧ P.base.n = p.n ∧ (∀ j, j + 1 < p.xk.length → piece P.base (j + 1) = piece p (j + 1)) ∧
    ∃ f : K → V, (∀ t, P.call t = .ok (f t)) ∧ IsPwPer p.xk (p.n - 1) (fun j => piece p (j + 1)) f := by
  have h2 : 2 ≤ p.xk.length := by
    by_contra hc
    rw [(C23_periodic hp).1 (by omega)] at h
    cases h
  obtain ⟨P', per, hP', hper, hpos, hpe, hwf, hcall, hval⟩ := (C23_periodic hp).2 h2
  rw [h] at hP'
  obtain rfl := Except.ok.inj hP'
  have hbase : P.base.xk = p.xk ∧ P.base.n = p.n ∧ ∀ j, j + 1 < p.xk.length → piece P.base (j + 1) = piece p (j + 1) := by
    unfold PerPwPoly.new at h
    rw [if_neg (by omega)] at h
    cases h
    refine ⟨rfl, rfl, fun j hj => ?_⟩
    unfold piece
    simp only
    have hl := hp.len
    rw [List.getD_eq_getElem _ _ (by simp; omega), List.getElem_set_ne (by simp; omega), List.getElem_set_ne (by omega), ← List.getD_eq_getElem _ []]
  refine ⟨h2, hwf, hbase.1, hbase.2.1, hbase.2.2, fun t => P.base.call (P.base.xk.getD 0 0 + pmod (t - P.base.xk.getD 0 0) per), ?_, ?_⟩
  · intro t; unfold PerPwPoly.call; rw [hper]
  have hPf : ∀ t, P.call t = .ok (P.base.call (P.base.xk.getD 0 0 + pmod (t - P.base.xk.getD 0 0) per)) := by
    intro t; unfold PerPwPoly.call; rw [hper]
  refine ⟨fun t k => ?_, fun j hj => ⟨by rw [hp.piece_length (by omega)]; have := hp.pos; omega, fun t h0 h1 hl => ?_⟩⟩
  · have := (hcall t k).1
    rw [hPf, hPf] at this
    rw [← hpe]
    exact Except.ok.inj this
  · have hx0 : p.xk.getD 0 0 ≤ t := by
      rcases h0 with h0 | ⟨rfl, rfl⟩
      · exact (first_le hp.inc (by rw [List.getD_eq_getElem _ _ (by omega)]; exact List.getElem_mem _)).trans h0.le
      · exact le_rfl
    have key : ∃ i, InPiece p.xk i t ∧ max i 1 = j + 1 := by
      rcases h0 with h0 | ⟨rfl, rfl⟩
      · exact ⟨j + 1, between_piece hp.inc hj h0 h1, by omega⟩
      · refine ⟨0, ⟨by omega, fun i _ hi => by omega, fun i hi _ => first_le hp.inc (List.getElem_mem _)⟩, rfl⟩
    obtain ⟨i, hi, hmax⟩ := key
    have := (hval t hx0 hl i hi).1
    rw [hPf, hmax] at this
    beta_reduce
    rw [Except.ok.inj this]
    unfold pieceVal origin
    rw [Nat.add_sub_cancel]

/-- The value of a periodic piecewise polynomial function at a point of the first period. -/
theorem isPwPer_at {V : Type} [AddCommGroup V] [Module K V] {C : ℕ → List V} {g : K → V} (hg : IsPwPer xk n C g)
    (hs : xk.Pairwise (· < ·)) (h2 : 2 ≤ xk.length) {t : K} (h0 : xk.getD 0 0 ≤ t) (h1 : t < xk.getD (xk.length - 1) 0) :
    g t = polyVal (C (index xk t)) (t - xk.getD (index xk t) 0) := by
  obtain ⟨a, b, c, d⟩ := index_spec hs h2 h0 h1.le
  refine (hg.2 _ a).2 t ?_ c h1
  rcases b.lt_or_eq with hb | hb
  · exact Or.inl hb
  · refine Or.inr ⟨d hb, ?_⟩
    rw [← d hb]; exact hb

/-- Everything about the periodic fit. -/
theorem splfit_per_core (hS : ScipyOK S) (hs : xk.Pairwise (· < ·))
    (h : splfit S xk x y sigy n ncArg lo hi true extrap = .ok (out, cost)) :
    ∃ P f nc, out = .per P ∧ (∀ t, P.call t = .ok (f t)) ∧ 2 ≤ xk.length ∧ WF P.base ∧ P.base.xk = xk ∧ P.base.n = n + 1 ∧
      (ncArg = none ∧ nc + 1 = n ∨ ncArg = some (nc : ℤ)) ∧ nc < n ∧ lo = [] ∧ hi = [] ∧ extrap = none ∧
      IsPwPer xk n (fun j => piece P.base (j + 1)) f ∧
      (∀ j, j + 1 < xk.length → ∀ k ≤ nc, perJump xk (fun j => piece P.base (j + 1)) j k = 0) ∧
      cost.inner.length = nc + 1 ∧ (∀ k ≤ nc, (cost.inner.getD k []).length = xk.length - 1) ∧ cost.lo = [] ∧ cost.hi = [] ∧
      ∀ C' g, IsPwPer xk n C' g →
        chi2 x y (sigy.getD (y.map fun _ _ => 1)) g = chi2 x y (sigy.getD (y.map fun _ _ => 1)) f +
          ∑ t ∈ range x.length, ∑ i, ((g (x.getD t 0) i - f (x.getD t 0) i) / (sigy.getD (y.map fun _ _ => 1)).getD t 0 i) ^ 2 -
          ∑ j ∈ range (xk.length - 1), ∑ k ∈ range (nc + 1), ∑ i,
            (Spl.width xk j / Spl.width xk ((j + 1) % (xk.length - 1))) ^ k * (cost.inner.getD k []).getD j 0 i * perJump xk C' j k i := by
  obtain ⟨s, nc, z, hset, hy, hsg, hor, hnc, -, -, hz, hcost, hout, -⟩ := splfit_ok h
  obtain ⟨h2, e1, e2, e3, hper, -⟩ := setup_ok hset hs
  obtain ⟨hlo, hhi, hex, hxk, hsx⟩ := hper rfl
  obtain ⟨P, hP, hout⟩ := hout rfl
  subst hlo hhi
  simp only [if_true, sysOf, e1, e2, hxk] at hz
  rw [e1, e2, hxk] at hcost
  rw [e1, hxk] at hP
  simp only [List.length_nil] at hcost hP
  set x0 := xk.getD 0 0 with hx0
  set xl := xk.getD (xk.length - 1) 0 with hxl
  have hpos : 0 < xl - x0 := by
    rw [sub_pos, hx0, hxl, List.getD_eq_getElem _ _ (by omega), List.getD_eq_getElem _ _ (by omega)]
    exact List.pairwise_iff_getElem.mp hs 0 (xk.length - 1) (by omega) (by omega) (by omega)
  set dx := Spl.width xk with hdx
  have hdne : ∀ j, j + 1 < xk.length → dx j ≠ 0 := fun j hj => Spl.width_ne hs hj
  have hn1 : 1 ≤ n := by omega
  have hmod : ∀ j, (j + 1) % (xk.length - 1) + 1 < xk.length := fun j => by
    have := Nat.mod_lt (j + 1) (show 0 < xk.length - 1 by omega)
    omega
  obtain ⟨-, hwf, hbx, hbn, hbp, f, hPf, hpw⟩ := perNew_fun (splAssemble_WF hn1 hs h2) hP
  have hq : ∀ j, j + 1 < xk.length → piece P.base (j + 1) = splInner n nc 0 dx z j := by
    intro j hj
    rw [hbp j hj, splAssemble_inner hj]
  have hpw : IsPwPer xk n (fun j => piece P.base (j + 1)) f := by
    refine ⟨hpw.1, fun j hj => ?_⟩
    beta_reduce
    rw [hbp j hj]
    exact hpw.2 j hj
  have hplen : ∀ j, j + 1 < xk.length → (piece P.base (j + 1)).length = n + 1 := fun j hj => (hpw.2 j hj).1
  have hxlen : s.x.length = x.length := by rw [hsx, List.length_map]
  have hget : ∀ t < x.length, s.x.getD t 0 = pmod (x.getD t 0 - x0) (xl - x0) + x0 := by
    intro t ht
    rw [hsx, List.getD_eq_getElem _ _ (by simpa using ht), List.getElem_map, List.getD_eq_getElem _ _ ht]
  have hmap : ∀ q : K → Fin m → K, (∀ t (k : ℤ), q (t + k * (xl - x0)) = q t) → ∀ t < x.length,
      q (s.x.getD t 0) = q (x.getD t 0) := by
    intro q hq t ht
    rw [hget t ht, ← hq (pmod (x.getD t 0 - x0) (xl - x0) + x0) ⌊(x.getD t 0 - x0) / (xl - x0)⌋]
    congr 1
    unfold pmod
    ring
  have hr : ∀ t < x.length, xk.getD 0 0 ≤ s.x.getD t 0 ∧ s.x.getD t 0 < xk.getD (xk.length - 1) 0 := by
    intro t ht
    rw [hget t (by omega)]
    have a := pmod_nonneg (x.getD t 0 - x0) hpos
    have b := pmod_lt (x.getD t 0 - x0) hpos
    constructor
    · rw [← hx0]; linarith
    · rw [← hxl]; linarith
  clear_value x0 xl
  have hsol := fun i => splSol_per_spec hnc (C39_solves_periodic hS (hz i)) (fun _ _ => rfl) (fun _ _ => rfl)
  have hcs : ∀ i j q, j + 1 < xk.length → q < n + 1 → dx j ^ q * (piece P.base (j + 1)).getD q 0 i = z i (j * (n + 2 + nc) + q) := by
    intro i j q hj hq'
    rw [hq j hj, splInner_getD j hq', Nat.zero_add, mul_div_cancel₀]
    exact pow_ne_zero _ (hdne j hj)
  have htay : ∀ i j k, j + 1 < xk.length → dx j ^ k * rightCoeff xk (fun j => piece P.base (j + 1)) j k i =
      ∑ q ∈ range (n + 1), (q.choose k : K) * z i (j * (n + 2 + nc) + q) := by
    intro i j k hj
    rw [rightCoeff]
    refine (taylor_scaled (hplen j hj) i _ k).trans ?_
    exact sum_congr rfl fun q hq => by rw [← hcs i j q hj (mem_range.mp hq)]
  have hsmooth : ∀ j, j + 1 < xk.length → ∀ k ≤ nc, perJump xk (fun j => piece P.base (j + 1)) j k = 0 := by
    intro j hj k hk
    unfold perJump
    rw [sub_eq_zero]
    funext i
    have a1 := (hsol i).1 j k (by omega) (by omega)
    rw [← htay i j k (by omega), ← hcs i _ k (hmod j) (by omega), ratOf, ← mul_assoc,
      div_mul_cancel₀ _ (pow_ne_zero _ (hdne _ (hmod j)))] at a1
    exact (mul_left_cancel₀ (pow_ne_zero _ (hdne j (by omega))) a1).symm
  refine ⟨P, f, nc, hout, hPf, h2, hwf, hbx, hbn, hor, hnc, rfl, rfl, hex, hpw, hsmooth, ?_, ?_, ?_, ?_, ?_⟩
  · rw [hcost]; simp [splCost]
  · intro k hk
    rw [hcost]
    simp only [splCost, if_true]
    rw [List.getD_eq_getElem _ _ (by simp; omega)]
    simp
  · rw [hcost]; simp [splCost]
  · rw [hcost]; simp [splCost]
  intro C' g hg
  have hc1 : ∀ i j k, j + 1 < xk.length → k < nc + 1 → (cost.inner.getD k []).getD j 0 i =
      -2 * z i (j * (n + 2 + nc) + (n + 1 + k)) * dx ((j + 1) % (xk.length - 1)) ^ k := by
    intro i j k hj hk
    rw [hcost]
    simp only [splCost, if_true]
    rw [List.getD_eq_getElem (List.map _ (List.range (nc + 1))) _ (by simpa using hk)]
    simp only [List.getElem_map, List.getElem_range]
    rw [List.getD_eq_getElem _ _ (by simp; omega)]
    simp only [List.getElem_map, List.getElem_range, add_assoc, Nat.zero_add]
  have hix : ∀ t < x.length, index xk (s.x.getD t 0) < xk.length - 1 := fun t ht => by
    have := (index_spec hs h2 (hr t ht).1 (hr t ht).2.le).1
    omega
  -- one component
  have comp : ∀ i, ∑ t ∈ range x.length, ((g (s.x.getD t 0) i - y.getD t 0 i) / (sigy.getD (y.map fun _ _ => 1)).getD t 0 i) ^ 2 =
      ∑ t ∈ range x.length, ((f (s.x.getD t 0) i - y.getD t 0 i) / (sigy.getD (y.map fun _ _ => 1)).getD t 0 i) ^ 2 +
      ∑ t ∈ range x.length, ((g (s.x.getD t 0) i - f (s.x.getD t 0) i) / (sigy.getD (y.map fun _ _ => 1)).getD t 0 i) ^ 2 -
      ∑ j ∈ range (xk.length - 1), ∑ k ∈ range (nc + 1),
        (dx j / dx ((j + 1) % (xk.length - 1))) ^ k * (cost.inner.getD k []).getD j 0 i * perJump xk C' j k i := by
    intro i
    generalize (sigy.getD (y.map fun _ _ => 1)) = sig at hz hsol ⊢
    obtain ⟨-, stat⟩ := hsol i
    have stat := stat (fun j q => dx j ^ q * ((C' j).getD q 0 i - (piece P.base (j + 1)).getD q 0 i))
    rw [data_form hix] at stat
    have hv : ∀ t ∈ range x.length, f (s.x.getD t 0) i = ∑ q ∈ range (n + 1),
        ((s.x.getD t 0 - xk.getD (index xk (s.x.getD t 0)) 0) * (1 / dx (index xk (s.x.getD t 0)))) ^ q *
          z i (index xk (s.x.getD t 0) * (n + 2 + nc) + q) := by
      intro t ht
      have ht := mem_range.mp ht
      have hj := hix t ht
      rw [isPwPer_at hpw hs h2 (hr t ht).1 (hr t ht).2, polyVal_scaled (hplen _ (by omega)) i (hdne _ (show index xk (s.x.getD t 0) + 1 < _ by omega))]
      exact sum_congr rfl fun q hq => by rw [hcs i _ q (by omega) (mem_range.mp hq)]
    have hgv : ∀ t ∈ range x.length, g (s.x.getD t 0) i = (∑ q ∈ range (n + 1),
        ((s.x.getD t 0 - xk.getD (index xk (s.x.getD t 0)) 0) * (1 / dx (index xk (s.x.getD t 0)))) ^ q *
          z i (index xk (s.x.getD t 0) * (n + 2 + nc) + q)) +
        ∑ q ∈ range (n + 1), ((s.x.getD t 0 - xk.getD (index xk (s.x.getD t 0)) 0) * (1 / dx (index xk (s.x.getD t 0)))) ^ q *
          (dx (index xk (s.x.getD t 0)) ^ q * ((C' (index xk (s.x.getD t 0))).getD q 0 i - (piece P.base (index xk (s.x.getD t 0) + 1)).getD q 0 i)) := by
      intro t ht
      have ht := mem_range.mp ht
      have hj := hix t ht
      rw [isPwPer_at hg hs h2 (hr t ht).1 (hr t ht).2, polyVal_scaled (hg.2 _ (by omega)).1 i (hdne _ (show index xk (s.x.getD t 0) + 1 < _ by omega)),
        ← sum_add_distrib]
      refine sum_congr rfl fun q hq => ?_
      rw [← hcs i _ q (by omega) (mem_range.mp hq)]
      ring
    have hsq := square_form (N := x.length) (w := fun t => 1 / (sig.getD t 0 i * sig.getD t 0 i)) (y := fun t => y.getD t 0 i)
      (fun t => ∑ q ∈ range (n + 1),
        ((s.x.getD t 0 - xk.getD (index xk (s.x.getD t 0)) 0) * (1 / dx (index xk (s.x.getD t 0)))) ^ q *
          z i (index xk (s.x.getD t 0) * (n + 2 + nc) + q))
      (fun t => ∑ q ∈ range (n + 1), ((s.x.getD t 0 - xk.getD (index xk (s.x.getD t 0)) 0) * (1 / dx (index xk (s.x.getD t 0)))) ^ q *
          (dx (index xk (s.x.getD t 0)) ^ q * ((C' (index xk (s.x.getD t 0))).getD q 0 i - (piece P.base (index xk (s.x.getD t 0) + 1)).getD q 0 i)))
    have l1 : ∑ t ∈ range x.length, ((g (s.x.getD t 0) i - y.getD t 0 i) / sig.getD t 0 i) ^ 2 = _ :=
      (sum_congr rfl fun t ht => by rw [weight_sq, hgv t ht]).trans hsq
    have l2 : ∑ t ∈ range x.length, ((f (s.x.getD t 0) i - y.getD t 0 i) / sig.getD t 0 i) ^ 2 = _ :=
      sum_congr rfl fun t ht => by rw [weight_sq, hv t ht]
    have l3 : ∑ t ∈ range x.length, ((g (s.x.getD t 0) i - f (s.x.getD t 0) i) / sig.getD t 0 i) ^ 2 = _ :=
      sum_congr rfl fun t ht => by rw [weight_sq, hgv t ht, hv t ht, add_sub_cancel_left]
    rw [l1, l2, l3]
    -- the constraint terms
    have t1 : ∑ j ∈ range (xk.length - 1), ∑ k ∈ range (nc + 1), z i (j * (n + 2 + nc) + (n + 1 + k)) *
        (∑ q ∈ range (n + 1), (q.choose k : K) * (dx j ^ q * ((C' j).getD q 0 i - (piece P.base (j + 1)).getD q 0 i)) -
          ratOf (xk.length - 1) dx j k * (dx ((j + 1) % (xk.length - 1)) ^ k * ((C' ((j + 1) % (xk.length - 1))).getD k 0 i -
            (piece P.base ((j + 1) % (xk.length - 1) + 1)).getD k 0 i))) =
        ∑ j ∈ range (xk.length - 1), ∑ k ∈ range (nc + 1), (1 / 2) *
          ((dx j / dx ((j + 1) % (xk.length - 1))) ^ k * (cost.inner.getD k []).getD j 0 i * perJump xk C' j k i) := by
      refine sum_congr rfl fun j hj => sum_congr rfl fun k hk => ?_
      have hj := mem_range.mp hj
      have hk := mem_range.mp hk
      rw [hc1 i j k (by omega) hk]
      simp only [mul_sub, sum_sub_distrib]
      rw [← taylor_scaled (hg.2 j (by omega)).1 i (dx j) k, ← taylor_scaled (hplen j (by omega)) i (dx j) k, ratOf]
      have hsm := congrFun (hsmooth j (by omega) k (by omega)) i
      simp only [perJump, rightCoeff, Pi.sub_apply, Pi.zero_apply] at hsm ⊢
      change _ - taylorCoeff (piece P.base (j + 1)) (dx j) k i = 0 at hsm
      change _ = 1 / 2 * (_ * (_ * dx _ ^ k) * (_ - taylorCoeff (C' j) (dx j) k i))
      rw [sub_eq_zero] at hsm
      rw [← hsm]
      have := pow_ne_zero k (hdne _ (hmod j))
      rw [div_pow]
      field_simp
      ring
    beta_reduce at stat
    rw [t1] at stat
    simp only [← mul_sum] at stat
    linear_combination 2 * stat
  have hchi : ∀ q : K → Fin m → K, (∀ t (k : ℤ), q (t + k * (xl - x0)) = q t) →
      chi2 x y (sigy.getD (y.map fun _ _ => 1)) q = ∑ i, ∑ t ∈ range x.length, ((q (s.x.getD t 0) i - y.getD t 0 i) / (sigy.getD (y.map fun _ _ => 1)).getD t 0 i) ^ 2 := by
    intro q hq
    unfold chi2
    rw [sum_comm]
    refine sum_congr rfl fun i _ => sum_congr rfl fun t ht => ?_
    rw [hmap q hq t (mem_range.mp ht)]
  have hgp : ∀ t (k : ℤ), g (t + k * (xl - x0)) = g t := by rw [hx0, hxl]; exact hg.1
  have hfp : ∀ t (k : ℤ), f (t + k * (xl - x0)) = f t := by rw [hx0, hxl]; exact hpw.1
  rw [hchi g hgp, hchi f hfp, sum_congr rfl fun i _ => comp i]
  simp only [sum_sub_distrib, sum_add_distrib]
  rw [sum_cast3]
  congr 2
  rw [sum_comm]
  refine sum_congr rfl fun t ht => ?_
  rw [hmap g hgp t (mem_range.mp ht), hmap f hfp t (mem_range.mp ht)]

end Npplus
