import Verif.Props.Calculus
import Verif.Props.PwInit
import Verif.Props.Pline
import Verif.Props.BasicAxis
import Mathlib.Analysis.SpecialFunctions.Integrals.Basic

/-!
# Property C111: integrals at the data points, and rebinning

`pline(x, y).integ()` is the trapezoid rule `cum(zcen(y)*diff(x))` at the data points; the integral of a histogram is its cumulative sum;
`p.integ().reknot(xn, 1).deriv()` are the averages of `p` over the new bins.
-/

set_option linter.unusedSectionVars false
namespace Npplus
open Spec Set MeasureTheory PwPoly Basic

namespace RebinAux
variable {V : Type} [NormedAddCommGroup V] [NormedSpace ℝ V]

/-- a linear piece -/
theorem lin_values {q : PwPoly ℝ V} (hq : WF q) (hn : q.n = 2) {i : ℕ} (hi : i ≤ q.xk.length) (s t : ℝ) :
    pieceDeriv q i t 0 - pieceDeriv q i s 0 = (t - s) • pieceDeriv q i s 1 ∧ pieceDeriv q i t 1 = pieceDeriv q i s 1 := by
  have hl : (piece q i).length = 2 := by
    rw [← hn]
    apply hq.row
    unfold piece
    rw [List.getD_eq_getElem _ _ (by rw [hq.len]; omega)]
    exact List.getElem_mem _
  unfold pieceDeriv
  obtain ⟨a, b, h⟩ := List.length_eq_two.1 hl
  rw [h]
  simp only [polyDeriv_eq, taylorCoeff_cons_succ, taylorCoeff_zero, taylorCoeff_nil, polyVal_cons, polyVal_nil]
  constructor
  · simp only [Nat.factorial_zero, Nat.factorial_one, Nat.cast_one, one_smul, smul_zero, add_zero, zero_add, sub_smul]
    abel
  · simp

theorem mono {x : List ℝ} (hs : x.Pairwise (· < ·)) {i j : ℕ} (hij : i ≤ j) (hj : j < x.length) : x.getD i 0 ≤ x.getD j 0 := by
  rw [List.getD_eq_getElem _ _ (by omega), List.getD_eq_getElem _ _ hj]
  rcases Nat.eq_or_lt_of_le hij with h | h
  · subst h; exact le_rfl
  · exact (List.pairwise_iff_getElem.1 hs i j _ _ h).le

theorem lt_of {x : List ℝ} (hs : x.Pairwise (· < ·)) {i : ℕ} (hj : i + 1 < x.length) : x.getD i 0 < x.getD (i + 1) 0 := by
  rw [List.getD_eq_getElem _ _ (by omega), List.getD_eq_getElem _ _ hj]
  exact List.pairwise_iff_getElem.1 hs i (i + 1) _ _ (by omega)

end RebinAux
open RebinAux

section
variable {V : Type} [NormedAddCommGroup V] [NormedSpace ℝ V] [CompleteSpace V]

/-- **C111** rebinning: for every function `p` and new bin boundaries `xn`, `p.integ().reknot(xn, 1).deriv()` returns; its value in every bin is the
average of `p` over that bin, and 0 outside. -/
theorem C111_rebin {inv : InvFun ℝ} (hinv : InvOK inv) {p : PwPoly ℝ V} (hp : WF p) (k : V) (lbnd : ℝ) {xn : List ℝ}
    (hs : xn.Pairwise (· < ·)) (hx : 2 ≤ xn.length) :
    ∃ P q, p.integ 1 [k] lbnd = .ok P ∧ P.reknot inv xn (some 1) = .ok q ∧ WF (q.deriv 1) ∧ (q.deriv 1).xk = xn ∧ (q.deriv 1).n = 1 ∧
      (∀ j, j + 1 < xn.length → ∀ t, xn.getD j 0 < t → t ≤ xn.getD (j + 1) 0 →
        (q.deriv 1).call t = (1 / (xn.getD (j + 1) 0 - xn.getD j 0)) • ∫ u in xn.getD j 0..xn.getD (j + 1) 0, p.call u) ∧
      (∀ t, t ≤ xn.getD 0 0 → (q.deriv 1).call t = 0) ∧
      ∀ t, xn.getD (xn.length - 1) 0 < t → (q.deriv 1).call t = 0 := by
  obtain ⟨P, hP, hPwf, -, -, -⟩ := C10_integ_once hp k lbnd
  obtain ⟨P', hP', hint⟩ := C10_integral hp k lbnd
  obtain rfl : P' = P := Except.ok.inj (hP'.symm.trans hP)
  obtain ⟨q, hq, hqw, hqx, hqn, hd⟩ := C13_reknot_odd_partial hinv hPwf hs hx (n := 1) rfl (.inr rfl)
  have hD := C09_deriv hqw 1
  have hval : ∀ j < xn.length, pieceDeriv q j (xn.getD j 0) 0 = P'.call (xn.getD j 0) ∧ pieceDeriv q (j + 1) (xn.getD j 0) 0 = P'.call (xn.getD j 0) := by
    intro j hj
    obtain ⟨i, hi, -⟩ := existsUnique_inPiece hPwf.inc (xn.getD j 0)
    have := hd j hj i hi 0 (Nat.zero_le _)
    rw [((C04_call_partial hPwf _).2 i hi).1, pieceVal_eq]
    exact this
  have hext : ∀ x : ℝ, ((∀ a ∈ xn, x ≤ a) → q.call x = P'.call (xn.getD 0 0)) ∧ ((∀ a ∈ xn, a ≤ x) → q.call x = P'.call (xn.getD (xn.length - 1) 0)) := by
    intro x
    have hinit : init inv xn ([xn.map fun x => (P'.callN x 0).getD 0 0] ++ (none : Option (List V)).toList) = .ok q := by
      have : P'.reknot inv xn (some 1) = init inv xn [xn.map fun x => (P'.callN x 0).getD 0 0] := by
        unfold reknot
        have hxn : xn ≠ [] := by rintro rfl; simp at hx
        have hdd : ¬ (xn.getD (xn.length - 1) 0 < xn.getD 0 0) := not_lt.2 (mono hs (Nat.zero_le _) (by omega))
        simp only [Option.getD_some]
        rw [if_neg hxn, if_neg hdd]
        rfl
      rw [hq] at this
      simpa using this.symm
    have := C06_extrapolation hinv hs hx (args := [xn.map fun x => (P'.callN x 0).getD 0 0]) (by simp) (by simp) none (by simp) hinit x
    have hc : ∀ j < xn.length, (xn.map fun x => (P'.callN x 0).getD 0 0).getD j 0 = P'.call (xn.getD j 0) := by
      intro j hj
      rw [List.getD_eq_getElem _ _ (by simpa using hj), List.getElem_map, List.getD_eq_getElem _ _ hj]
      obtain ⟨i, hi, -⟩ := existsUnique_inPiece hPwf.inc xn[j]
      have h1 := (((C04_call_partial hPwf _).2 i hi).2 0 (.inr rfl)).2 0 le_rfl
      rw [h1, ((C04_call_partial hPwf _).2 i hi).1, pieceVal_eq]
    simp only [List.length_cons, List.length_nil, zero_add, Finset.sum_range_one, pow_zero, Nat.factorial_zero, Nat.cast_one, div_one, one_smul,
      List.getD_cons_zero] at this
    rw [hc 0 (by omega), hc _ (by omega)] at this
    exact this
  have hcall : ∀ i x, InPiece xn i x → (q.deriv 1).call x = pieceDeriv q i x 1 ∧ q.call x = pieceDeriv q i x 0 := by
    intro i x hi
    rw [← hqx] at hi
    exact ⟨(hD.2.2.2 i x hi).1, by rw [((C04_call_partial hqw x).2 i hi).1, pieceVal_eq]⟩
  have hxl : q.xk.length = xn.length := by rw [hqx]
  refine ⟨P', q, hP, hq, hD.1, hD.2.1.trans hqx, by rw [hD.2.2.1, hqn]; rfl, fun j hj t h1 h2 => ?_, fun t ht => ?_, fun t ht => ?_⟩
  · have hi := between_piece hs hj h1 h2
    obtain ⟨l1, -⟩ := lin_values hqw hqn (i := j + 1) (by omega) (xn.getD j 0) (xn.getD (j + 1) 0)
    obtain ⟨-, l2⟩ := lin_values hqw hqn (i := j + 1) (by omega) (xn.getD j 0) t
    rw [(hcall _ _ hi).1, l2]
    rw [(hval (j + 1) hj).1, (hval j (by omega)).2, hint, hint, add_sub_add_left_eq_sub,
      intervalIntegral.integral_interval_sub_left (call_intervalIntegrable hp _ _) (call_intervalIntegrable hp _ _)] at l1
    have := lt_of hs hj
    rw [l1, smul_smul, one_div, inv_mul_cancel₀ (by linarith), one_smul]
  · have hall : ∀ a ∈ xn, xn.getD 0 0 ≤ a := by
      intro a ha
      obtain ⟨j, hj, rfl⟩ := List.getElem_of_mem ha
      have := mono hs (Nat.zero_le j) hj
      rwa [List.getD_eq_getElem _ _ hj] at this
    have hin : ∀ s, s ≤ xn.getD 0 0 → InPiece xn 0 s := fun s h =>
      ⟨by omega, fun j _ h0 => by omega, fun j hj _ => h.trans (hall _ (List.getElem_mem hj))⟩
    obtain ⟨l1, l2⟩ := lin_values hqw hqn (i := 0) (by omega) t (t - 1)
    rw [← (hcall _ _ (hin t ht)).2, ← (hcall _ _ (hin (t - 1) (by linarith))).2,
      (hext t).1 fun a ha => ht.trans (hall a ha), (hext (t - 1)).1 fun a ha => by have := hall a ha; linarith, sub_self] at l1
    rw [(hcall _ _ (hin t ht)).1]
    have : (t - 1 - t) = -1 := by ring
    rw [this, neg_smul, one_smul] at l1
    simpa using l1.symm
  · have hall : ∀ a ∈ xn, a ≤ xn.getD (xn.length - 1) 0 := by
      intro a ha
      obtain ⟨j, hj, rfl⟩ := List.getElem_of_mem ha
      have := mono hs (show j ≤ xn.length - 1 by omega) (by omega)
      rwa [List.getD_eq_getElem _ _ hj] at this
    have hin : ∀ s, xn.getD (xn.length - 1) 0 < s → InPiece xn xn.length s := fun s h =>
      ⟨le_rfl, fun j hj _ => (hall _ (List.getElem_mem hj)).trans_lt h, fun j hj h0 => by omega⟩
    obtain ⟨l1, l2⟩ := lin_values hqw hqn (i := xn.length) (by omega) t (t + 1)
    rw [← (hcall _ _ (hin t ht)).2, ← (hcall _ _ (hin (t + 1) (by linarith))).2,
      (hext t).2 fun a ha => (hall a ha).trans ht.le, (hext (t + 1)).2 fun a ha => by have := hall a ha; linarith, sub_self] at l1
    rw [(hcall _ _ (hin t ht)).1]
    have : (t + 1 - t) = 1 := by ring
    rw [this, one_smul] at l1
    exact l1.symm

/-- **C111** nothing is lost: the new values times the widths of the new bins add up to the integral of `p` over all of them. -/
theorem C111_rebin_total {inv : InvFun ℝ} (hinv : InvOK inv) {p : PwPoly ℝ V} (hp : WF p) (k : V) (lbnd : ℝ) {xn : List ℝ}
    (hs : xn.Pairwise (· < ·)) (hx : 2 ≤ xn.length) :
    ∃ P q, p.integ 1 [k] lbnd = .ok P ∧ P.reknot inv xn (some 1) = .ok q ∧
      ∑ j ∈ Finset.range (xn.length - 1), (xn.getD (j + 1) 0 - xn.getD j 0) • (q.deriv 1).call (xn.getD (j + 1) 0) =
        ∫ u in xn.getD 0 0..xn.getD (xn.length - 1) 0, p.call u := by
  obtain ⟨P, q, h1, h2, -, -, -, h3, -⟩ := C111_rebin hinv hp k lbnd hs hx
  refine ⟨P, q, h1, h2, ?_⟩
  rw [← intervalIntegral.sum_integral_adjacent_intervals (a := fun j => xn.getD j 0) fun j _ => call_intervalIntegrable hp _ _]
  refine Finset.sum_congr rfl fun j hj => ?_
  have hj' : j + 1 < xn.length := by have := Finset.mem_range.1 hj; omega
  have := lt_of hs hj'
  rw [h3 j hj' _ this le_rfl, smul_smul, one_div, mul_inv_cancel₀ (by linarith), one_smul]

/-- the integral up to a data point is the sum over the intervals -/
theorem RebinAux.integral_sum {p : PwPoly ℝ V} (hp : WF p) {xn : List ℝ} {F : ℕ → V} {j : ℕ} (hj : j < xn.length)
    (h : ∀ i, i + 1 < xn.length → ∫ u in xn.getD i 0..xn.getD (i + 1) 0, p.call u = F i) :
    ∃ P, p.integ 1 [0] (xn.getD 0 0) = .ok P ∧ P.call (xn.getD j 0) = ∑ i ∈ Finset.range j, F i := by
  obtain ⟨P, h1, h2⟩ := C10_integral hp 0 (xn.getD 0 0)
  refine ⟨P, h1, ?_⟩
  rw [h2, zero_add, ← intervalIntegral.sum_integral_adjacent_intervals (a := fun j => xn.getD j 0) fun j _ => call_intervalIntegrable hp _ _]
  refine Finset.sum_congr rfl fun i hi => h i (by have := Finset.mem_range.1 hi; omega)

/-- **C111** the integral of a histogram, at the bin boundaries, is the cumulative sum of the values times the widths of the bins. -/
theorem C111_histogram (inv : InvFun ℝ) {xk : List ℝ} (hs : xk.Pairwise (· < ·)) {y : List V} (hyn : y ≠ []) (hy : y.length + 1 = xk.length)
    {j : ℕ} (hj : j < xk.length) :
    ∃ p P, init inv xk [y] = .ok p ∧ p.integ 1 [0] (xk.getD 0 0) = .ok P ∧
      P.call (xk.getD j 0) = ∑ i ∈ Finset.range j, (xk.getD (i + 1) 0 - xk.getD i 0) • y.getD i 0 := by
  obtain ⟨p, h1, h2, h3, -, h4⟩ := C08_histogram_less inv hs hyn hy
  obtain ⟨P, h5, h6⟩ := integral_sum h2 (F := fun i => (xk.getD (i + 1) 0 - xk.getD i 0) • y.getD i 0) hj fun i hi => by
    have hlt := lt_of hs hi
    rw [← intervalIntegral.integral_const]
    refine intervalIntegral.integral_congr_ae (.of_forall fun t ht => ?_)
    rw [uIoc_of_le hlt.le] at ht
    rw [h4 (i + 1) t (between_piece hs hi ht.1 ht.2), if_pos ⟨by omega, hi⟩, Nat.add_sub_cancel]
  exact ⟨p, P, h1, h5, h6⟩

/-- **C111** the integral of a polyline, at its points, is the trapezoid rule. -/
theorem C111_polyline {inv : InvFun ℝ} {S : Scipy ℝ} (hinv : InvOK inv) (hS : ScipyOK S) {x : List ℝ} {y : List V} (hs : x.Pairwise (· < ·))
    (hx : 2 ≤ x.length) (hy : y.length = x.length) (extrap : Option (ℕ × ℕ)) {j : ℕ} (hj : j < x.length) :
    ∃ p P, pline inv S x y extrap = .ok (.pw p) ∧ p.integ 1 [0] (x.getD 0 0) = .ok P ∧
      P.call (x.getD j 0) = ∑ i ∈ Finset.range j, (x.getD (i + 1) 0 - x.getD i 0) • ((1 / 2 : ℝ) • (y.getD i 0 + y.getD (i + 1) 0)) := by
  obtain ⟨p, h1, h2, h3, -, -, h4, -⟩ := C30_pline (extrap := extrap) hinv hS hs hx hy
  obtain ⟨P, h5, h6⟩ := integral_sum h2 (F := fun i => (x.getD (i + 1) 0 - x.getD i 0) • ((1 / 2 : ℝ) • (y.getD i 0 + y.getD (i + 1) 0))) hj fun i hi => by
    have hlt := lt_of hs hi
    have hne : x.getD (i + 1) 0 - x.getD i 0 ≠ 0 := by linarith
    rw [intervalIntegral.integral_congr (g := fun t => y.getD i 0 + ((t - x.getD i 0) / (x.getD (i + 1) 0 - x.getD i 0)) • (y.getD (i + 1) 0 - y.getD i 0))
      fun t ht => by
        rw [uIcc_of_le hlt.le] at ht
        exact h4 i hi t ht.1 ht.2]
    rw [intervalIntegral.integral_add (by simp) ((Continuous.intervalIntegrable (by fun_prop) _ _)), intervalIntegral.integral_const,
      intervalIntegral.integral_smul_const]
    have : ∫ t in x.getD i 0..x.getD (i + 1) 0, (t - x.getD i 0) / (x.getD (i + 1) 0 - x.getD i 0) = (x.getD (i + 1) 0 - x.getD i 0) / 2 := by
      rw [intervalIntegral.integral_div, intervalIntegral.integral_sub ((Continuous.intervalIntegrable (by fun_prop) _ _)) (by simp), integral_id, intervalIntegral.integral_const, smul_eq_mul]
      field_simp
      ring
    rw [this]
    module
  exact ⟨p, P, h1, h5, h6⟩

end

/-- **C111** the documented idiom: `cum(zcen(y)*diff(x))` (1-D arrays) is `pline(x, y).integ(lbnd=x[0])(x)`. -/
theorem C111_idiom {inv : InvFun ℝ} {S : Scipy ℝ} (hinv : InvOK inv) (hS : ScipyOK S) (x y : NdArr ℝ) {m : ℕ} (hx : x.shape = [m]) (hy : y.shape = [m]) (hm : 2 ≤ m)
    (hs : ∀ i j, i < j → j < m → x.get [i] < x.get [j]) (axis : ℤ) (hax : axis = 0 ∨ axis = -1) :
    ∃ z pr r p P, zcen y axis = .ok z ∧ z.zip (· * ·) (x.diffAx 0) = .ok pr ∧ cum pr (some axis) = .ok r ∧ r.shape = [m] ∧
      pline inv S ((List.range m).map fun i => x.get [i]) ((List.range m).map fun i => y.get [i]) none = .ok (.pw p) ∧
      p.integ 1 [0] (x.get [0]) = .ok P ∧ ∀ j < m, r.get [j] = P.call (x.get [j]) := by
  obtain ⟨z, pr, r, h1, h2, h3, h4, h5⟩ := C65_trapezoid y x (axis := axis) (k := 0) (by
    rw [hy]; rcases hax with h | h <;> subst h <;> simp [IsAxis]) (by rw [hx, hy]) (by rw [hy]; simpa using hm)
  have hl : ∀ (a : NdArr ℝ) i, i < m → ((List.range m).map fun i => a.get [i]).getD i 0 = a.get [i] := fun a i hi => by
    rw [List.getD_eq_getElem _ _ (by simpa using hi)]; simp
  have hs' : ((List.range m).map fun i => x.get [i]).Pairwise (· < ·) := by
    rw [List.pairwise_map]
    exact List.Pairwise.imp_of_mem (fun {i j} _ hj h => hs i j h (List.mem_range.1 hj)) List.pairwise_lt_range
  have hp : ∀ j < m, ∃ p P, pline inv S ((List.range m).map fun i => x.get [i]) ((List.range m).map fun i => y.get [i]) none = .ok (.pw p) ∧
      p.integ 1 [0] (x.get [0]) = .ok P ∧ r.get [j] = P.call (x.get [j]) := by
    intro j hj
    obtain ⟨p, P, g1, g2, g3⟩ := C111_polyline hinv hS hs' (by simpa using hm) (y := (List.range m).map fun i => y.get [i]) (by simp) none (j := j) (by simpa using hj)
    rw [hl x 0 (by omega)] at g2
    rw [hl x j hj] at g3
    refine ⟨p, P, g1, g2, ?_⟩
    rw [g3, h5 [j] (by rw [hy]; exact ⟨rfl, by simpa using hj⟩)]
    refine Finset.sum_congr rfl fun i hi => ?_
    have hi' : i < j := by simpa using hi
    rw [hl x i (by omega), hl x (i + 1) (by omega), hl y i (by omega), hl y (i + 1) (by omega)]
    simp only [List.set_cons_zero, smul_eq_mul]
    ring
  obtain ⟨p, P, g1, g2, -⟩ := hp 0 (by omega)
  refine ⟨z, pr, r, p, P, h1, h2, h3, by rw [h4, hy], g1, g2, fun j hj => ?_⟩
  obtain ⟨p', P', g1', g2', g3'⟩ := hp j hj
  obtain rfl : p = p' := by
    have := Except.ok.inj (g1.symm.trans g1')
    injection this
  obtain rfl : P = P' := Except.ok.inj (g2.symm.trans g2')
  exact g3'

/-! ### concrete cases -/

/-- a histogram of two bins put into one bin: the average -/
example : ∃ p P q : PwPoly ℝ ℝ, init (adjInv ℝ) [0, 1, 2] [[1, 3]] = .ok p ∧ p.integ 1 [0] 0 = .ok P ∧ P.reknot (adjInv ℝ) [0, 2] (some 1) = .ok q ∧
    (q.deriv 1).call 2 = 2 := by
  obtain ⟨p, P, h1, h2, h3⟩ := C111_histogram (adjInv ℝ) (xk := [0, 1, 2]) (y := [(1 : ℝ), 3]) (by simp) (by simp) rfl (j := 2) (by simp)
  obtain ⟨p', g1, hp, -⟩ := C08_histogram_less (adjInv ℝ) (xk := [0, 1, 2]) (y := [(1 : ℝ), 3]) (by simp) (by simp) rfl
  obtain rfl : p = p' := Except.ok.inj (h1.symm.trans g1)
  obtain ⟨P', q, k1, k2, k3⟩ := C111_rebin_total adjInv_ok hp 0 0 (xn := [0, 2]) (by simp) (by simp)
  obtain ⟨P'', l1, l2⟩ := C10_integral hp (0 : ℝ) 0
  obtain rfl : P = P' := Except.ok.inj (h2.symm.trans k1)
  obtain rfl : P = P'' := Except.ok.inj (h2.symm.trans l1)
  refine ⟨p, P, q, h1, h2, k2, ?_⟩
  have e := l2 2
  simp [Finset.sum_range_succ] at h3 k3 e
  rw [← e, h3] at k3
  linarith

example : ∃ p P : PwPoly ℝ ℝ, pline (adjInv ℝ) (exactScipy ℝ) [0, 1, 3] [0, 2, 4] none = .ok (.pw p) ∧ p.integ 1 [0] 0 = .ok P ∧ P.call 3 = 7 := by
  obtain ⟨p, P, h1, h2, h3⟩ := C111_polyline (V := ℝ) adjInv_ok exactScipy_ok (x := [0, 1, 3]) (y := [0, 2, 4]) (by simp) (by simp) rfl none (j := 2) (by simp)
  refine ⟨p, P, h1, h2, ?_⟩
  simp [Finset.sum_range_succ] at h3
  rw [h3]
  norm_num

end Npplus
