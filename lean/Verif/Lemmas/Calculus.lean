import Verif.Props.PwCore
import Verif.Lemmas.Knots
import Mathlib.Analysis.Calculus.Deriv.Pow
import Mathlib.Analysis.Calculus.Deriv.Add
import Mathlib.Analysis.Calculus.Deriv.Mul
import Mathlib.Analysis.Calculus.Deriv.Shift
import Mathlib.Analysis.Calculus.Deriv.Comp
import Mathlib.MeasureTheory.Integral.DivergenceTheorem
import Mathlib.MeasureTheory.Integral.IntervalIntegral.Basic

/-!
# The functions represented by a PwPoly over ℝ: continuity, derivatives and integrals in the sense of analysis
-/

set_option linter.unusedSectionVars false
namespace Npplus
open Spec Set Filter Topology MeasureTheory

variable {V : Type} [NormedAddCommGroup V] [NormedSpace ℝ V]

theorem polyDeriv_hasDerivAt (c : List V) (x : ℝ) (k : ℕ) :
    HasDerivAt (fun x : ℝ => polyDeriv c x k) (polyDeriv c x (k + 1)) x := by
  unfold polyDeriv
  refine HasDerivAt.fun_sum fun i _ => ?_
  have h : HasDerivAt (fun x : ℝ => (i.descFactorial k : ℝ) * x ^ (i - k)) ((i.descFactorial (k + 1) : ℝ) * x ^ (i - (k + 1))) x := by
    have := (hasDerivAt_pow (i - k) x).const_mul (i.descFactorial k : ℝ)
    have e : (i.descFactorial (k + 1) : ℝ) * x ^ (i - (k + 1)) = (i.descFactorial k : ℝ) * (((i - k : ℕ) : ℝ) * x ^ (i - k - 1)) := by
      rw [Nat.descFactorial_succ, Nat.sub_sub]
      push_cast
      ring
    rw [e]
    exact this
  exact h.smul_const _

theorem pieceDeriv_hasDerivAt (p : PwPoly ℝ V) (i : ℕ) (x : ℝ) (k : ℕ) :
    HasDerivAt (fun x => pieceDeriv p i x k) (pieceDeriv p i x (k + 1)) x :=
  (polyDeriv_hasDerivAt (piece p i) (x - origin p.xk i) k).comp_sub_const x _

theorem pieceDeriv_continuous (p : PwPoly ℝ V) (i k : ℕ) : Continuous fun x => pieceDeriv p i x k :=
  continuous_iff_continuousAt.2 fun x => (pieceDeriv_hasDerivAt p i x k).continuousAt

theorem pieceVal_eq (p : PwPoly ℝ V) (i : ℕ) (x : ℝ) : pieceVal p i x = pieceDeriv p i x 0 := by
  unfold pieceVal pieceDeriv
  rw [PwPoly.polyDeriv_zero]

theorem call_eq_piece {p : PwPoly ℝ V} (hp : WF p) {i : ℕ} {x : ℝ} (hi : InPiece p.xk i x) : p.call x = pieceDeriv p i x 0 := by
  rw [((C04_call_partial hp x).2 i hi).1, pieceVal_eq]

theorem inPiece_left {xk : List ℝ} {i : ℕ} {x : ℝ} (h : InPiece xk i x) : ∀ᶠ y in 𝓝[≤] x, InPiece xk i y := by
  have h1 : ∀ᶠ y in 𝓝 x, ∀ j : Fin xk.length, j.1 < i → xk[j] < y := by
    rw [eventually_all]
    intro j
    by_cases hj : j.1 < i
    · filter_upwards [lt_mem_nhds (h.2.1 j j.2 hj)] with y hy _ using hy
    · exact .of_forall fun _ h => absurd h hj
  filter_upwards [h1.filter_mono nhdsWithin_le_nhds, self_mem_nhdsWithin] with y hy hle
  exact ⟨h.1, fun j hj hji => hy ⟨j, hj⟩ hji, fun j hj hij => le_trans hle (h.2.2 j hj hij)⟩

theorem inPiece_nhds {xk : List ℝ} {i : ℕ} {x : ℝ} (h : InPiece xk i x) (hx : x ∉ xk) : ∀ᶠ y in 𝓝 x, InPiece xk i y := by
  have h1 : ∀ᶠ y in 𝓝 x, ∀ j : Fin xk.length, (j.1 < i → xk[j] < y) ∧ (i ≤ j.1 → y < xk[j]) := by
    rw [eventually_all]
    intro j
    by_cases hj : j.1 < i
    · filter_upwards [lt_mem_nhds (h.2.1 j j.2 hj)] with y hy
      exact ⟨fun _ => hy, fun h => by omega⟩
    · have : x < xk[j] := lt_of_le_of_ne (h.2.2 j j.2 (by omega)) fun e => hx (e ▸ List.getElem_mem _)
      filter_upwards [gt_mem_nhds this] with y hy
      exact ⟨fun h => absurd h hj, fun _ => hy⟩
  filter_upwards [h1] with y hy
  exact ⟨h.1, fun j hj hji => (hy ⟨j, hj⟩).1 hji, fun j hj hij => ((hy ⟨j, hj⟩).2 hij).le⟩

theorem inPiece_right {xk : List ℝ} (hs : xk.Pairwise (· < ·)) {j : ℕ} (hj : j < xk.length) :
    ∀ᶠ y in 𝓝[>] xk[j], InPiece xk (j + 1) y := by
  have hlt := List.pairwise_iff_getElem.1 hs
  have h1 : ∀ᶠ y in 𝓝 xk[j], ∀ l : Fin xk.length, j < l.1 → y < xk[l] := by
    rw [eventually_all]
    intro l
    by_cases hl : j < l.1
    · filter_upwards [gt_mem_nhds (hlt j l hj l.2 hl)] with y hy _ using hy
    · exact .of_forall fun _ h => absurd h hl
  filter_upwards [h1.filter_mono nhdsWithin_le_nhds, self_mem_nhdsWithin] with y hy hgt
  refine ⟨by omega, fun l hl hlj => ?_, fun l hl hjl => (hy ⟨l, hl⟩ (show j < l by omega)).le⟩
  rcases Nat.lt_or_ge l j with h | h
  · exact (hlt l j hl hj h).trans hgt
  · have : l = j := by omega
    subst this
    exact hgt

/-- Near a point left of it, and near a point right of it, a PwPoly is one of its pieces: the same one if the point is not a knot. -/
theorem call_left {p : PwPoly ℝ V} (hp : WF p) {i : ℕ} {x : ℝ} (hi : InPiece p.xk i x) :
    p.call =ᶠ[𝓝[≤] x] fun y => pieceDeriv p i y 0 := by
  filter_upwards [inPiece_left hi] with y hy using call_eq_piece hp hy

theorem call_nhds {p : PwPoly ℝ V} (hp : WF p) {i : ℕ} {x : ℝ} (hi : InPiece p.xk i x) (hx : x ∉ p.xk) :
    p.call =ᶠ[𝓝 x] fun y => pieceDeriv p i y 0 := by
  filter_upwards [inPiece_nhds hi hx] with y hy using call_eq_piece hp hy

theorem call_right {p : PwPoly ℝ V} (hp : WF p) {j : ℕ} (hj : j < p.xk.length) :
    p.call =ᶠ[𝓝[>] p.xk[j]] fun y => pieceDeriv p (j + 1) y 0 := by
  filter_upwards [inPiece_right hp.inc hj] with y hy using call_eq_piece hp hy

/-- `deriv` is the derivative, at every point that is not a knot -/
theorem call_hasDerivAt {p : PwPoly ℝ V} (hp : WF p) {x : ℝ} (hx : x ∉ p.xk) : HasDerivAt p.call ((p.deriv 1).call x) x := by
  obtain ⟨i, hi, _⟩ := existsUnique_inPiece hp.inc x
  rw [((C09_deriv hp 1).2.2.2 i x hi).1]
  exact (pieceDeriv_hasDerivAt p i x 0).congr_of_eventuallyEq (call_nhds hp hi hx)

/-- at a knot where the values match the function is continuous -/
theorem call_continuousAt {p : PwPoly ℝ V} (hp : WF p) {x : ℝ} (hx : ∀ j, ∀ hj : j < p.xk.length, x = p.xk[j] → MatchAt p 0 j) :
    ContinuousAt p.call x := by
  by_cases hm : x ∈ p.xk
  · obtain ⟨j, hj, rfl⟩ := List.getElem_of_mem hm
    have hM := hx j hj rfl
    have hi : InPiece p.xk j p.xk[j] := inPiece_knot hp.inc hj
    unfold MatchAt at hM
    rw [List.getD_eq_getElem _ _ hj] at hM
    have hl : Tendsto p.call (𝓝[≤] p.xk[j]) (𝓝 (p.call p.xk[j])) := by
      rw [call_eq_piece hp hi]
      exact (((pieceDeriv_continuous p j 0).continuousAt (x := p.xk[j])).mono_left nhdsWithin_le_nhds).congr' (call_left hp hi).symm
    have hr : Tendsto p.call (𝓝[>] p.xk[j]) (𝓝 (p.call p.xk[j])) := by
      rw [call_eq_piece hp hi, hM]
      exact (((pieceDeriv_continuous p (j + 1) 0).continuousAt (x := p.xk[j])).mono_left nhdsWithin_le_nhds).congr' (call_right hp hj).symm
    unfold ContinuousAt
    rw [← nhdsLE_sup_nhdsGT]
    exact hl.sup hr
  · obtain ⟨i, hi, _⟩ := existsUnique_inPiece hp.inc x
    exact (pieceDeriv_continuous p i 0).continuousAt.congr (call_nhds hp hi hm).symm

/-- at a knot where values and slopes match `deriv` is the derivative, too -/
theorem call_hasDerivAt_knot {p : PwPoly ℝ V} (hp : WF p) {j : ℕ} (hj : j < p.xk.length) (h0 : MatchAt p 0 j) (h1 : MatchAt p 1 j) :
    HasDerivAt p.call ((p.deriv 1).call p.xk[j]) p.xk[j] := by
  have hi : InPiece p.xk j p.xk[j] := inPiece_knot hp.inc hj
  unfold MatchAt at h0 h1
  rw [List.getD_eq_getElem _ _ hj] at h0 h1
  rw [((C09_deriv hp 1).2.2.2 j _ hi).1]
  have hl : HasDerivWithinAt p.call (pieceDeriv p j p.xk[j] 1) (Iic p.xk[j]) p.xk[j] :=
    (pieceDeriv_hasDerivAt p j p.xk[j] 0).hasDerivWithinAt.congr_of_eventuallyEq (call_left hp hi) (call_eq_piece hp hi)
  have hr : HasDerivWithinAt p.call (pieceDeriv p j p.xk[j] 1) (Ioi p.xk[j]) p.xk[j] := by
    rw [h1]
    exact (pieceDeriv_hasDerivAt p (j + 1) p.xk[j] 0).hasDerivWithinAt.congr_of_eventuallyEq (call_right hp hj)
      (by rw [call_eq_piece hp hi, h0])
  have := hl.union hr
  rwa [Iic_union_Ioi, hasDerivWithinAt_univ] at this

theorem measurableSet_inPiece (xk : List ℝ) (i : ℕ) : MeasurableSet {x | InPiece xk i x} := by
  by_cases hi : i ≤ xk.length
  · have : {x | InPiece xk i x} = ⋂ j : Fin xk.length, ({x | j.1 < i → xk[j] < x} ∩ {x | i ≤ j.1 → x ≤ xk[j]}) := by
      ext x
      simp only [mem_setOf_eq, mem_iInter, mem_inter_iff]
      exact ⟨fun h j => ⟨h.2.1 j j.2, h.2.2 j j.2⟩, fun h => ⟨hi, fun j hj => (h ⟨j, hj⟩).1, fun j hj => (h ⟨j, hj⟩).2⟩⟩
    rw [this]
    refine MeasurableSet.iInter fun j => ?_
    by_cases hj : j.1 < i
    · have e : {x | j.1 < i → xk[j] < x} ∩ {x : ℝ | i ≤ j.1 → x ≤ xk[j]} = Ioi xk[j] := by
        ext x
        simp [hj]
      rw [e]
      exact measurableSet_Ioi
    · have e : {x | j.1 < i → xk[j] < x} ∩ {x : ℝ | i ≤ j.1 → x ≤ xk[j]} = Iic xk[j] := by
        ext x
        simp [hj, not_lt.1 hj]
      rw [e]
      exact measurableSet_Iic
  · have : {x | InPiece xk i x} = ∅ := by
      ext x
      simp only [mem_setOf_eq, mem_empty_iff_false, iff_false]
      exact fun h => hi h.1
    rw [this]
    exact MeasurableSet.empty

theorem call_eq_sum {p : PwPoly ℝ V} (hp : WF p) (x : ℝ) :
    p.call x = ∑ i ∈ Finset.range (p.xk.length + 1), indicator {x | InPiece p.xk i x} (fun y => pieceDeriv p i y 0) x := by
  obtain ⟨i, hi, hu⟩ := existsUnique_inPiece hp.inc x
  rw [Finset.sum_eq_single i]
  · rw [indicator_of_mem (by exact hi), call_eq_piece hp hi]
  · intro j _ hj
    exact indicator_of_notMem (s := {x | InPiece p.xk j x}) (fun h => hj (hu j h)) _
  · intro h
    have := hi.1
    simp only [Finset.mem_range] at h
    omega

/-- a PwPoly is integrable on every interval -/
theorem call_intervalIntegrable {p : PwPoly ℝ V} (hp : WF p) (a b : ℝ) : IntervalIntegrable p.call volume a b := by
  have e : p.call = fun x => ∑ i ∈ Finset.range (p.xk.length + 1), indicator {x | InPiece p.xk i x} (fun y => pieceDeriv p i y 0) x := by
    funext x
    exact call_eq_sum hp x
  rw [e, intervalIntegrable_iff]
  refine integrable_finsetSum _ fun i _ => ?_
  have h : IntegrableOn (fun y => pieceDeriv p i y 0) (uIoc a b) volume :=
    intervalIntegrable_iff.1 ((pieceDeriv_continuous p i 0).intervalIntegrable a b)
  exact Integrable.indicator h (measurableSet_inPiece p.xk i)

theorem knots_countable (xk : List ℝ) : {x | x ∈ xk}.Countable := (List.finite_toSet xk).countable

end Npplus
