import Verif.Lemmas.Calculus

/-!
# C09, C10 in the sense of analysis: `deriv` is the derivative, `integ` the integral
-/

set_option linter.unusedSectionVars false
namespace Npplus
open Spec Set Filter Topology MeasureTheory

section
variable {V : Type} [NormedAddCommGroup V] [NormedSpace ℝ V]

/-- **C09**, the limit of difference quotients: `p.deriv()(x)` is the derivative of the function `p` at every `x` that is not a knot, and
at every knot where value and slope of the two pieces match. -/
theorem C09_hasDerivAt {p : PwPoly ℝ V} (hp : WF p) {x : ℝ} (hx : ∀ j, ∀ hj : j < p.xk.length, x = p.xk[j] → MatchAt p 0 j ∧ MatchAt p 1 j) :
    HasDerivAt p.call ((p.deriv 1).call x) x := by
  by_cases hm : x ∈ p.xk
  · obtain ⟨j, hj, rfl⟩ := List.getElem_of_mem hm
    exact call_hasDerivAt_knot hp hj (hx j hj rfl).1 (hx j hj rfl).2
  · exact call_hasDerivAt hp hm

/-- **C09**, the converse: where value and slope do not match the function has no derivative. -/
theorem C09_not_differentiable {p : PwPoly ℝ V} (hp : WF p) {j : ℕ} (hj : j < p.xk.length) (h : DifferentiableAt ℝ p.call p.xk[j]) :
    MatchAt p 0 j ∧ MatchAt p 1 j := by
  have hi : InPiece p.xk j p.xk[j] := inPiece_knot hp.inc hj
  have h0 : MatchAt p 0 j := by
    unfold MatchAt
    rw [List.getD_eq_getElem _ _ hj]
    have hr : Tendsto p.call (𝓝[>] p.xk[j]) (𝓝 (pieceDeriv p (j + 1) p.xk[j] 0)) :=
      (((pieceDeriv_continuous p (j + 1) 0).continuousAt (x := p.xk[j])).mono_left nhdsWithin_le_nhds).congr' (call_right hp hj).symm
    have hc : Tendsto p.call (𝓝[>] p.xk[j]) (𝓝 (p.call p.xk[j])) := h.continuousAt.mono_left nhdsWithin_le_nhds
    rw [call_eq_piece hp hi] at hc
    exact tendsto_nhds_unique hc hr
  refine ⟨h0, ?_⟩
  unfold MatchAt at h0 ⊢
  rw [List.getD_eq_getElem _ _ hj] at h0 ⊢
  have hl : HasDerivWithinAt p.call (pieceDeriv p j p.xk[j] 1) (Iic p.xk[j]) p.xk[j] :=
    (pieceDeriv_hasDerivAt p j p.xk[j] 0).hasDerivWithinAt.congr_of_eventuallyEq (call_left hp hi) (call_eq_piece hp hi)
  have hr : HasDerivWithinAt p.call (pieceDeriv p (j + 1) p.xk[j] 1) (Ioi p.xk[j]) p.xk[j] :=
    (pieceDeriv_hasDerivAt p (j + 1) p.xk[j] 0).hasDerivWithinAt.congr_of_eventuallyEq (call_right hp hj)
      (by rw [call_eq_piece hp hi, h0])
  have e1 := (uniqueDiffWithinAt_Iic p.xk[j]).eq_deriv _ hl h.hasDerivAt.hasDerivWithinAt
  have e2 := (uniqueDiffWithinAt_Ioi p.xk[j]).eq_deriv _ hr h.hasDerivAt.hasDerivWithinAt
  rw [e1, e2]

/-- **C12**: the jumps tell where the function is continuous. -/
theorem C12_continuous_iff {p : PwPoly ℝ V} (hp : WF p) : _root_.Continuous p.call ↔ ∀ j < p.xk.length, MatchAt p 0 j := by
  constructor
  · intro h j hj
    have hi : InPiece p.xk j p.xk[j] := inPiece_knot hp.inc hj
    unfold MatchAt
    rw [List.getD_eq_getElem _ _ hj]
    have hr : Tendsto p.call (𝓝[>] p.xk[j]) (𝓝 (pieceDeriv p (j + 1) p.xk[j] 0)) :=
      (((pieceDeriv_continuous p (j + 1) 0).continuousAt (x := p.xk[j])).mono_left nhdsWithin_le_nhds).congr' (call_right hp hj).symm
    have hc : Tendsto p.call (𝓝[>] p.xk[j]) (𝓝 (p.call p.xk[j])) := h.continuousAt.mono_left nhdsWithin_le_nhds
    rw [call_eq_piece hp hi] at hc
    exact tendsto_nhds_unique hc hr
  · exact fun h => continuous_iff_continuousAt.2 fun x => call_continuousAt hp fun j hj _ => h j hj

/-- **C10**, the integral of analysis: `p.integ(1, k, lbnd)(x) = k + ∫ p` from `lbnd` to `x`, for every `x` on either side. -/
theorem C10_integral [CompleteSpace V] {p : PwPoly ℝ V} (hp : WF p) (k : V) (lbnd : ℝ) :
    ∃ P, p.integ 1 [k] lbnd = .ok P ∧ ∀ x, P.call x = k + ∫ t in lbnd..x, p.call t := by
  obtain ⟨P, h, hP, h0, hd, hc⟩ := C10_integ_once hp k lbnd
  refine ⟨P, h, fun x => ?_⟩
  have hcont : _root_.Continuous P.call := (C12_continuous_iff hP).2 hc
  have := integral_eq_of_hasDerivAt_off_countable P.call p.call (a := lbnd) (b := x) (knots_countable P.xk) hcont.continuousOn
    (fun t ht => by rw [← hd t]; exact call_hasDerivAt hP ht.2) (call_intervalIntegrable hp lbnd x)
  rw [this, h0]
  abel

/-- **C10**: the definite integral between two points is the difference of the values of the integral. -/
theorem C10_definite [CompleteSpace V] {p : PwPoly ℝ V} (hp : WF p) (k : V) (lbnd a b : ℝ) :
    ∃ P, p.integ 1 [k] lbnd = .ok P ∧ ∫ t in a..b, p.call t = P.call b - P.call a := by
  obtain ⟨P, h, h1⟩ := C10_integral hp k lbnd
  refine ⟨P, h, ?_⟩
  rw [h1 a, h1 b, ← intervalIntegral.integral_add_adjacent_intervals (call_intervalIntegrable hp a lbnd) (call_intervalIntegrable hp lbnd b),
    intervalIntegral.integral_symm lbnd a]
  abel

end

/-- |x|, extended linearly: not differentiable at 0, and elsewhere it is -/
noncomputable def exAbs : PwPoly ℝ ℝ := ⟨[0], 2, [[0, -1], [0, 1]]⟩

theorem exAbs_WF : WF exAbs := ⟨by simp [exAbs], by simp [exAbs], by simp [exAbs], by simp [exAbs], by simp [exAbs]⟩

example : ¬ DifferentiableAt ℝ exAbs.call 0 := by
  intro h
  have := (C09_not_differentiable exAbs_WF (j := 0) (by simp [exAbs]) (by simpa [exAbs] using h)).2
  simp [MatchAt, pieceDeriv, piece, polyDeriv, exAbs, Finset.sum_range_succ, origin] at this
  norm_num at this

example : HasDerivAt exAbs.call 1 3 := by
  have hx : (3 : ℝ) ∉ exAbs.xk := by simp [exAbs]
  have := C09_hasDerivAt exAbs_WF (x := 3) fun j hj e => absurd (e ▸ List.getElem_mem hj) hx
  have hi : InPiece exAbs.xk 1 3 := ⟨by simp [exAbs], fun j hj h => by simp [exAbs], fun j hj h => by simp [exAbs] at hj; omega⟩
  rw [((C09_deriv exAbs_WF 1).2.2.2 1 3 hi).1] at this
  have e : pieceDeriv exAbs 1 3 1 = 1 := by
    simp [pieceDeriv, piece, polyDeriv, exAbs, Finset.sum_range_succ, origin]
  rwa [e] at this

end Npplus
