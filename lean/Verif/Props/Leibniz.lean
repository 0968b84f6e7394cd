import Verif.Props.Calculus
import Verif.Props.PwArith

/-!
# C124: the rules of calculus hold between the operations of PwPoly

`(p+q)' = p'+q'`, `(p*q)' = p'*q + p*q'` at every `x` (knots included), the integral of a sum is the sum of the integrals,
and integration by parts for continuous functions.
-/

set_option linter.unusedSectionVars false
namespace Npplus
open Spec Set Filter Topology MeasureTheory PwPoly

section
variable {V : Type} [NormedAddCommGroup V] [NormedSpace ℝ V]

/-- `deriv` is the derivative from the left at every point, knots included -/
theorem call_hasDerivWithinAt {p : PwPoly ℝ V} (hp : WF p) (x : ℝ) : HasDerivWithinAt p.call ((p.deriv 1).call x) (Iic x) x := by
  obtain ⟨i, hi, _⟩ := existsUnique_inPiece hp.inc x
  rw [((C09_deriv hp 1).2.2.2 i x hi).1]
  exact (pieceDeriv_hasDerivAt p i x 0).hasDerivWithinAt.congr_of_eventuallyEq (call_left hp hi) (call_eq_piece hp hi)

theorem left_unique {f : ℝ → V} {a b : V} {x : ℝ} (h1 : HasDerivWithinAt f a (Iic x) x) (h2 : HasDerivWithinAt f b (Iic x) x) : a = b :=
  (h1.derivWithin (uniqueDiffWithinAt_Iic x)).symm.trans (h2.derivWithin (uniqueDiffWithinAt_Iic x))

/-- C124.  The derivative of a sum and of a difference is the sum and the difference of the derivatives, at every `x`. -/
theorem C124_sum {p q : PwPoly ℝ V} (hp : WF p) (hq : WF q) {D : ℝ} (hD : Separated (defaultTol ℝ) D p.xk q.xk) :
    ∃ r s, p.add q = .ok r ∧ p.sub q = .ok s ∧
      ∀ x, (r.deriv 1).call x = (p.deriv 1).call x + (q.deriv 1).call x ∧ (s.deriv 1).call x = (p.deriv 1).call x - (q.deriv 1).call x := by
  obtain ⟨r, s, er, es, hv⟩ := C16_separated hp hq hD
  obtain ⟨r', er', _, hr⟩ := C16_add_partial hp hq
  obtain ⟨s', es', _, hs⟩ := C16_sub_partial hp hq
  cases er'.symm.trans er
  cases es'.symm.trans es
  refine ⟨r, s, er, es, fun x => ⟨?_, ?_⟩⟩
  · have e : r.call = fun x => p.call x + q.call x := funext fun x => (hv x).1
    exact left_unique (call_hasDerivWithinAt hr.1 x) (e ▸ (call_hasDerivWithinAt hp x).add (call_hasDerivWithinAt hq x))
  · have e : s.call = fun x => p.call x - q.call x := funext fun x => (hv x).2
    exact left_unique (call_hasDerivWithinAt hs.1 x) (e ▸ (call_hasDerivWithinAt hp x).sub (call_hasDerivWithinAt hq x))

/-- C124.  The integral of a sum (with constant `k1+k2`) is the sum of the integrals. -/
theorem C124_integ_sum [CompleteSpace V] {p q : PwPoly ℝ V} (hp : WF p) (hq : WF q) {D : ℝ} (hD : Separated (defaultTol ℝ) D p.xk q.xk) (k1 k2 : V)
    (lbnd : ℝ) : ∃ r R P Q, p.add q = .ok r ∧ r.integ 1 [k1 + k2] lbnd = .ok R ∧ p.integ 1 [k1] lbnd = .ok P ∧ q.integ 1 [k2] lbnd = .ok Q ∧
      ∀ x, R.call x = P.call x + Q.call x := by
  obtain ⟨r, s0, er, _, hv⟩ := C16_separated hp hq hD
  obtain ⟨r', er', _, hr⟩ := C16_add_partial hp hq
  cases er'.symm.trans er
  obtain ⟨R, eR, hR⟩ := C10_integral hr.1 (k1 + k2) lbnd
  obtain ⟨P, eP, hP⟩ := C10_integral hp k1 lbnd
  obtain ⟨Q, eQ, hQ⟩ := C10_integral hq k2 lbnd
  refine ⟨r, R, P, Q, er, eR, eP, eQ, fun x => ?_⟩
  rw [hR, hP, hQ]
  have e : r.call = fun x => p.call x + q.call x := funext fun x => (hv x).1
  rw [e, intervalIntegral.integral_add (call_intervalIntegrable hp _ _) (call_intervalIntegrable hq _ _)]
  abel

end

/-- C124.  The product rule: with `f*g`, `f'*g` and `f*g'` all computed as PwPoly products, `(f*g)' = f'*g + f*g'` at every
`x`, knots included. -/
theorem C124_product {p q : PwPoly ℝ ℝ} (hp : WF p) (hq : WF q) {D : ℝ} (hD : Separated (defaultTol ℝ) D p.xk q.xk) :
    ∃ r s t, p.mul q = .ok r ∧ (p.deriv 1).mul q = .ok s ∧ p.mul (q.deriv 1) = .ok t ∧
      ∀ x, (r.deriv 1).call x = s.call x + t.call x ∧
        (r.deriv 1).call x = (p.deriv 1).call x * q.call x + p.call x * (q.deriv 1).call x := by
  obtain ⟨r, er, hv⟩ := C17_separated hp hq hD
  obtain ⟨r', er', _, hr⟩ := C17_mul_partial hp hq
  cases er'.symm.trans er
  obtain ⟨wp, kp, -⟩ := C09_deriv hp 1
  obtain ⟨wq, kq, -⟩ := C09_deriv hq 1
  obtain ⟨s, es, hs⟩ := C17_separated wp hq (D := D) (by rw [kp]; exact hD)
  obtain ⟨t, et, ht⟩ := C17_separated hp wq (D := D) (by rw [kq]; exact hD)
  have e : r.call = fun x => p.call x * q.call x := funext hv
  have key : ∀ x, (r.deriv 1).call x = (p.deriv 1).call x * q.call x + p.call x * (q.deriv 1).call x := fun x =>
    left_unique (call_hasDerivWithinAt hr.1 x) (e ▸ (call_hasDerivWithinAt hp x).mul (call_hasDerivWithinAt hq x))
  exact ⟨r, s, t, er, es, et, fun x => ⟨by rw [hs, ht, key], key x⟩⟩

/-- C124.  Integration by parts: for continuous `f`, `g` the integrals of `f'*g` and of `f*g'` from `a` to `b`, as returned by
`integ`, add up to `f(b)*g(b) - f(a)*g(a)`. -/
theorem C124_parts {p q : PwPoly ℝ ℝ} (hp : WF p) (hq : WF q) (cp : Spec.Continuous p) (cq : Spec.Continuous q) {D : ℝ}
    (hD : Separated (defaultTol ℝ) D p.xk q.xk) (a : ℝ) :
    ∃ s t S T, (p.deriv 1).mul q = .ok s ∧ p.mul (q.deriv 1) = .ok t ∧ s.integ 1 [0] a = .ok S ∧ t.integ 1 [0] a = .ok T ∧
      ∀ b, S.call b + T.call b = p.call b * q.call b - p.call a * q.call a := by
  obtain ⟨r, s, t, er, es, et, hv⟩ := C124_product hp hq hD
  obtain ⟨wp, kp, -⟩ := C09_deriv hp 1
  obtain ⟨wq, kq, -⟩ := C09_deriv hq 1
  obtain ⟨s', es', _, hs⟩ := C17_mul_partial wp hq
  obtain ⟨t', et', _, ht⟩ := C17_mul_partial hp wq
  obtain ⟨r', er', _, hr⟩ := C17_mul_partial hp hq
  obtain ⟨r2, er2, hm⟩ := C17_separated hp hq hD
  cases es'.symm.trans es
  cases et'.symm.trans et
  cases er'.symm.trans er
  cases er2.symm.trans er
  obtain ⟨S, eS, hS⟩ := C10_integral hs.1 0 a
  obtain ⟨T, eT, hT⟩ := C10_integral ht.1 0 a
  refine ⟨s, t, S, T, es, et, eS, eT, fun b => ?_⟩
  have hc : _root_.Continuous r.call := by
    have e : r.call = fun x => p.call x * q.call x := funext hm
    rw [e]
    exact ((C12_continuous_iff hp).2 cp).mul ((C12_continuous_iff hq).2 cq)
  have hft := integral_eq_of_hasDerivAt_off_countable r.call (fun x => s.call x + t.call x) (a := a) (b := b) (knots_countable r.xk)
    hc.continuousOn (fun x hx => by have := call_hasDerivAt hr.1 hx.2; rwa [(hv x).1] at this)
    ((call_intervalIntegrable hs.1 a b).add (call_intervalIntegrable ht.1 a b))
  rw [hS, hT, ← hm, ← hm, ← hft, intervalIntegral.integral_add (call_intervalIntegrable hs.1 _ _) (call_intervalIntegrable ht.1 _ _)]
  ring

/-! ### Non-vacuity -/

/-- `x - 1`, with a knot at 1 -/
noncomputable def exLine : PwPoly ℝ ℝ := ⟨[1], 2, [[0, 1], [0, 1]]⟩

theorem exLine_WF : WF exLine := ⟨by simp [exLine], by simp [exLine], by simp [exLine], by simp [exLine], by simp [exLine]⟩

/-- the knots of `|x|` and of a function with a knot at 1 are separated -/
theorem exLeib_sep : Separated (defaultTol ℝ) 4 exAbs.xk exLine.xk where
  nonneg := by norm_num
  gx := fun j h => by simp [exAbs] at h
  gy := fun j h => by simp [exLine] at h
  single := fun _ _ y hy => by simp [exLine] at hy; subst hy; norm_num
  far := fun x hx y hy => by
    simp [exAbs] at hx
    simp [exLine] at hy
    subst hx hy
    right
    norm_num [defaultTol]

theorem exAbs_cont : Spec.Continuous exAbs := by
  intro j hj
  have : j = 0 := by simp [exAbs] at hj; omega
  subst this
  simp [MatchAt, pieceDeriv, piece, polyDeriv, exAbs, Finset.sum_range_succ, origin]

theorem exLine_cont : Spec.Continuous exLine := by
  intro j hj
  have : j = 0 := by simp [exLine] at hj; omega
  subst this
  simp [MatchAt, pieceDeriv, piece, polyDeriv, exLine, Finset.sum_range_succ, origin]

/-- At the knot 0 of `|x|`, `(|x|*(x-1))' = -1*(0-1) + 0*1 = 1` (the derivative from the left). -/
example : ∃ r, exAbs.mul exLine = .ok r ∧ (r.deriv 1).call 0 = 1 := by
  obtain ⟨r, _, _, er, _, _, h⟩ := C124_product exAbs_WF exLine_WF exLeib_sep
  refine ⟨r, er, ?_⟩
  rw [(h 0).2]
  have i1 : InPiece exAbs.xk 0 0 := ⟨by simp [exAbs], fun j hj h => by omega, fun j hj h => by simp [exAbs]⟩
  have i2 : InPiece exLine.xk 0 0 := ⟨by simp [exLine], fun j hj h => by omega, fun j hj h => by simp [exLine]⟩
  rw [((C09_deriv exAbs_WF 1).2.2.2 0 0 i1).1, ((C09_deriv exLine_WF 1).2.2.2 0 0 i2).1, call_eq_piece exAbs_WF i1, call_eq_piece exLine_WF i2]
  simp [pieceDeriv, piece, polyDeriv, exAbs, exLine, Finset.sum_range_succ, origin]

example (a : ℝ) : ∃ s t S T, (exAbs.deriv 1).mul exLine = .ok s ∧ exAbs.mul (exLine.deriv 1) = .ok t ∧ s.integ 1 [0] a = .ok S ∧
    t.integ 1 [0] a = .ok T ∧ ∀ b, S.call b + T.call b = exAbs.call b * exLine.call b - exAbs.call a * exLine.call a :=
  C124_parts exAbs_WF exLine_WF exAbs_cont exLine_cont exLeib_sep a

end Npplus
