import Verif.Lemmas.PwInteg
import Mathlib.Data.Rat.Defs
import Mathlib.Algebra.Field.Rat
import Mathlib.Algebra.Order.Ring.Rat

/-!
# Properties C04, C09, C10, C11, C12: evaluation, derivative, integral, jumps
-/

set_option linter.unusedSectionVars false
namespace Npplus
open Spec PwPoly

variable {K : Type} [Field K] [LinearOrder K]
variable {V : Type} [AddCommGroup V] [Module K V]

/-- A cubic-free running example: two knots, three pieces, discontinuous at 0, continuous at 2. -/
def exP : PwPoly ℚ ℚ := ⟨[0, 2], 2, [[1, 0], [3, -1], [1, 5]]⟩

theorem exP_WF : WF exP where
  ne := by decide
  inc := by decide +kernel
  len := rfl
  pos := by decide
  row := by decide +kernel

/-- **C04** (partial in the last item: `nd ≥ 1` needs degree at least 1).
Every `x` is in exactly one piece; if `x` is in piece `i` then `p(x)` is the polynomial of piece `i`
at `x` minus the origin of the piece, and `p(x, nd)` is the list of its value and `nd` derivatives. -/
theorem C04_call_partial {p : PwPoly K V} (hp : WF p) (x : K) :
    (∃! i, InPiece p.xk i x) ∧
    ∀ i, InPiece p.xk i x →
      p.call x = pieceVal p i x ∧
      ∀ nd, (2 ≤ p.n ∨ nd = 0) → (p.callN x nd).length = nd + 1 ∧
        ∀ k ≤ nd, (p.callN x nd).getD k 0 = pieceDeriv p i x k := by
  refine ⟨existsUnique_inPiece hp.inc x, fun i hi => ?_⟩
  have e := hi.eq_searchsorted
  refine ⟨by rw [call_eq hp, e], fun nd hnd => ?_⟩
  have hl : (p.c.getD i []).length = p.n := hp.piece_length hi.1
  by_cases h0 : nd = 0
  · subst h0
    simp only [callN, if_true]
    refine ⟨rfl, fun k hk => ?_⟩
    have : k = 0 := by omega
    subst this
    simp only [e, List.getD_cons_zero, xk0]
    rw [mkXk0_getD hp.ne, polyfun_eq, pieceDeriv, polyDeriv_zero, piece]
  · simp only [callN, h0, if_false, e, xk0]
    rw [mkXk0_getD hp.ne]
    have hr := polyddx_eq (p.c.getD i []) (x - origin p.xk i) nd (by omega)
    refine ⟨by unfold polyddxNorm; rw [List.length_mapIdx, hr, length_tcList], fun k hk => ?_⟩
    have hk' : k < (polyddx (p.c.getD i []) (x - origin p.xk i) nd).length := by rw [hr]; simp; omega
    unfold polyddxNorm
    rw [List.getD_eq_getElem?_getD, List.getElem?_mapIdx, List.getElem?_eq_getElem hk']
    simp only [Option.map_some, Option.getD_some]
    have := tcList_getD (p.c.getD i []) (x - origin p.xk i) nd k hk
    rw [pieceDeriv, piece, polyDeriv_eq, ← this, ← hr, List.getD_eq_getElem _ _ hk']

-- hypotheses of C04 are met, and p(1, 2) is what one expects: 3 - x at 1, slope -1, curvature 0
example : exP.callN 1 2 = [2, -1, 0] ∧ InPiece exP.xk 1 1 := by
  refine ⟨by decide +kernel, ?_⟩
  have h : searchsorted exP.xk 1 = 1 := by decide +kernel
  rw [← h]; exact inPiece_searchsorted exP_WF.inc 1

/-- **C04, the documented piece boundaries.** At a knot the piece on the *left* is evaluated,
while the class docstring says `xk[i-1] <= x < xk[i]` (right piece). -/
theorem C04_at_knot {p : PwPoly K V} (hp : WF p) (j : ℕ) (hj : j < p.xk.length) :
    p.call p.xk[j] = pieceVal p j p.xk[j] := by
  have : InPiece p.xk j p.xk[j] := by
    refine ⟨hj.le, fun k hk hkj => ?_, fun k hk hjk => ?_⟩
    · exact List.pairwise_iff_getElem.mp hp.inc k j hk hj hkj
    · rcases Nat.eq_or_lt_of_le hjk with h | h
      · simp [h]
      · exact le_of_lt (List.pairwise_iff_getElem.mp hp.inc j k hj hk h)
  exact ((C04_call_partial hp _).2 j this).1

/-- The docstring's rule is violated: at the knot 0 the documented value is 3, the code's is 1. -/
theorem C04_docstring_refuted :
    ∃ p : PwPoly ℚ ℚ, WF p ∧ ∃ x i, (∀ j (h : j < p.xk.length), j < i → p.xk[j] ≤ x) ∧
      (∀ j (h : j < p.xk.length), i ≤ j → x < p.xk[j]) ∧ p.call x ≠ pieceVal p i x := by
  refine ⟨exP, exP_WF, 0, 1, ?_, ?_, ?_⟩
  · intro j h hj; have : j = 0 := by omega
    subst this; simp [exP]
  · intro j h hj
    have : j = 1 := by simp [exP] at h; omega
    subst this; simp [exP]
  · decide +kernel

/-- **C04, refuted for histograms.** The derivative reported by `p(x, 1)` for a piecewise constant is
the constant. -/
theorem C04_constant_wrong : ∃ p : PwPoly ℚ ℚ, WF p ∧ ∃ x i, InPiece p.xk i x ∧
    (p.callN x 1).getD 1 0 ≠ pieceDeriv p i x 1 := by
  refine ⟨⟨[0], 1, [[7], [5]]⟩, ⟨by decide, by decide +kernel, rfl, by decide, by decide +kernel⟩,
    1, 1, ?_, ?_⟩
  · have h : searchsorted ([0] : List ℚ) 1 = 1 := by decide +kernel
    rw [← h]; exact inPiece_searchsorted (by decide +kernel) 1
  · decide +kernel

/-- **C09.** For every `m` (also beyond the degree) `p.deriv(m)` is a PwPoly with the same knots
whose value at `x` is the `m`-th derivative of the piece of `p` containing `x` (and likewise for
all its derivatives). -/
theorem C09_deriv {p : PwPoly K V} (hp : WF p) (m : ℕ) :
    WF (p.deriv m) ∧ (p.deriv m).xk = p.xk ∧ (p.deriv m).n = max (p.n - m) 1 ∧
    ∀ i x, InPiece p.xk i x → (p.deriv m).call x = pieceDeriv p i x m ∧
      ∀ k, pieceDeriv (p.deriv m) i x k = pieceDeriv p i x (k + m) := by
  refine ⟨deriv_WF hp m, rfl, (derivLoop_spec (K := K) m p.n p.c hp.pos hp.row).2.2.1, ?_⟩
  intro i x hi
  refine ⟨?_, fun k => deriv_pieceDeriv hp m i x k⟩
  have := ((C04_call_partial (deriv_WF hp m) x).2 i hi).1
  rw [this, pieceVal, ← polyDeriv_zero]
  have := deriv_pieceDeriv hp m i x 0
  rwa [Nat.zero_add] at this

/-- **C09, agreement with `p(x, m)`** (partial: degree at least 1 or `m = 0`; for degree 0 the
value returned by `p(x, m)` is wrong, `C04_constant_wrong`). -/
theorem C09_deriv_agrees_partial {p : PwPoly K V} (hp : WF p) (m : ℕ) (h : 2 ≤ p.n ∨ m = 0) (x : K) :
    (p.deriv m).call x = (p.callN x m).getD m 0 := by
  obtain ⟨i, hi, _⟩ := existsUnique_inPiece hp.inc x
  rw [((C09_deriv hp m).2.2.2 i x hi).1, (((C04_call_partial hp x).2 i hi).2 m h).2 m le_rfl]

example : (exP.deriv 1).call 1 = -1 ∧ (exP.deriv 5).call 1 = 0 := by decide +kernel

section integ
variable [IsStrictOrderedRing K]

/-- **C10** (partial only as to the *shape* of `k`: the constants must have the dimensions of the
values, see `C10_default_k_vector_fails`).
With at most `m` constants, `p.integ(m, k, lbnd)` succeeds; it is obtained from `p` by `m` successive
integrations, each continuous, with derivative the previous one, and with values `k` (then zeros) at
`lbnd`. -/
theorem C10_integ_partial {p : PwPoly K V} (hp : WF p) (m : ℕ) (k : List V) (lbnd : K)
    (hk : k.length ≤ m) :
    ∃ P, p.integ m k lbnd = .ok P ∧ WF P ∧ P.n = p.n + m ∧
      IsIntegrals lbnd p (k ++ List.replicate (m - k.length) 0) P := by
  have hc : integConsts m k = .ok (k ++ List.replicate (m - k.length) 0) := by
    unfold integConsts
    simp only
    rw [if_pos (by simp; omega)]
  obtain ⟨h1, h2⟩ := foldl_integOne hp lbnd (k ++ List.replicate (m - k.length) 0)
  rw [← foldl_integStep] at h1 h2
  refine ⟨_, ?_, h1, ?_, h2⟩
  · unfold integ; rw [hc]; rfl
  · simp; omega

/-- **C10, one integration, in terms of evaluation only.** `P = p.integ(1, [k], lbnd)` has
`P(lbnd) = k`, its derivative evaluates to `p` everywhere, and it is continuous. -/
theorem C10_integ_once {p : PwPoly K V} (hp : WF p) (k : V) (lbnd : K) :
    ∃ P, p.integ 1 [k] lbnd = .ok P ∧ WF P ∧ P.call lbnd = k ∧
      (∀ x, (P.deriv 1).call x = p.call x) ∧ Continuous P := by
  obtain ⟨P, h, hP, hn, hI⟩ := C10_integ_partial hp 1 [k] lbnd (by simp)
  cases hI with
  | step h1 h2 =>
    cases h2
    refine ⟨_, h, hP, ?_, ?_, h1.cont⟩
    · obtain ⟨i, hi, _⟩ := existsUnique_inPiece hp.inc lbnd
      rw [((C04_call_partial hP lbnd).2 i (by rw [h1.xk]; exact hi)).1]
      exact h1.val i hi
    · intro x
      obtain ⟨i, hi, _⟩ := existsUnique_inPiece hp.inc x
      rw [((C09_deriv hP 1).2.2.2 i x (by rw [h1.xk]; exact hi)).1, h1.deriv,
        ((C04_call_partial hp x).2 i hi).1, pieceVal, pieceDeriv, polyDeriv_zero]

example : exP.integ 2 [4] 1 = .ok ⟨[0, 2], 4,
    [[-17/6, 3/2, 1/2, 0], [-17/6, 3/2, 3/2, -1/6], [29/6, 11/2, 1/2, 5/6]]⟩ := by decide +kernel

/-- The documented default `k=()` works for scalar functions ... -/
theorem C10_default_k_scalar (m : ℕ) : integConstsShape [] m [0] = .ok [m] := by
  rcases m with _ | m <;> simp [integConstsShape, bcastShape, bcastRev]

/-- ... but fails for every function whose values are vectors of dimension `d ≥ 2`. -/
theorem C10_default_k_vector_fails (d m : ℕ) (hd : 2 ≤ d) (_hm : 1 ≤ m) :
    integConstsShape [d] m [0] = .error .valueError := by
  have h0 : d ≠ 0 := by omega
  have h1 : d ≠ 1 := by omega
  simp only [integConstsShape, List.length_cons, List.length_nil, if_true]
  by_cases hm : 1 < m
  · simp [hm, bcastShape, bcastRev, h0, h1]
  · have : m = 1 := by omega
    simp [this, bcastShape, bcastRev, h0, h1]

/-- More constants than integrations (which the docstring forbids) are not rejected when `m = 1`:
the function is integrated once per constant. -/
theorem C10_excess_constants {p : PwPoly K V} (hp : WF p) (k : List V) (lbnd : K) (hk : k ≠ []) :
    ∃ P, p.integ 1 k lbnd = .ok P ∧ WF P ∧ P.n = p.n + k.length ∧ IsIntegrals lbnd p k P := by
  have hl : 1 ≤ k.length := List.length_pos_iff.mpr hk
  have hc : integConsts 1 k = .ok k := by
    unfold integConsts
    simp only
    rw [show 1 - k.length = 0 by omega]
    simp
  obtain ⟨h1, h2⟩ := foldl_integOne hp lbnd k
  rw [← foldl_integStep] at h1 h2
  exact ⟨_, by unfold integ; rw [hc]; rfl, h1, rfl, h2⟩

/-- **C11, first half.** Differentiating the integral gives back `p`, coefficient by coefficient. -/
theorem C11_deriv_integ {p : PwPoly K V} (hp : WF p) (k : V) (lbnd : K) :
    ∃ P, p.integ 1 [k] lbnd = .ok P ∧ P.deriv 1 = p := by
  obtain ⟨v, h1, h2, h3⟩ := integStep_getD p.xk (searchsorted p.xk lbnd)
    (lbnd - p.xk0.getD (searchsorted p.xk lbnd) 0) p.c k hp.len (searchsorted_le _ _)
  refine ⟨p.integOne lbnd k, ?_, ?_⟩
  · rfl
  · obtain ⟨xk, n, c⟩ := p
    have hn : ¬ n + 1 < 2 := by have := hp.pos; simp at this; omega
    simp only [deriv, integOne, derivLoop, hn, if_false, Nat.add_sub_cancel]
    congr 1
    apply List.ext_getElem
    · simpa using h2
    · intro i hi1 hi2
      rw [List.getElem_map]
      have := h1 i hi2
      simp only at this
      rw [List.getD_eq_getElem _ _ (by simpa using hi1), List.getD_eq_getElem _ _ hi2] at this
      rw [this, derivPiece_addHead, derivPiece_integPiece]

theorem integPiece_derivPiece (l : List V) (h : l ≠ []) :
    integPiece K (derivPiece K l) = addHead (- l.headD 0) l := by
  cases l with
  | nil => simp at h
  | cons a l =>
    simp only [integPiece, derivPiece, List.drop_succ_cons, List.drop_zero, addHead,
      List.headD_cons, add_neg_cancel]
    congr 1
    apply List.ext_getElem
    · simp
    · intro i h1 h2
      simp only [List.getElem_mapIdx, smul_smul]
      have : ((i + 1 : ℕ) : K) ≠ 0 := by positivity
      rw [one_div_mul_cancel this, one_smul]

/-- **C11, second half.** If `p` is continuous of degree at least 1 then integrating its derivative
from `a` with constant `p(a)` gives back `p`, coefficient by coefficient. -/
theorem C11_integ_deriv {p : PwPoly K V} (hp : WF p) (hn : 2 ≤ p.n) (hc : Continuous p) (a : K) :
    (p.deriv 1).integ 1 [p.call a] a = .ok p := by
  have hD := deriv_WF hp 1
  have hDc : (p.deriv 1).c = p.c.map (derivPiece K) := by
    simp [deriv, derivLoop, show ¬ p.n < 2 by omega]
  have hDn : (p.deriv 1).n = p.n - 1 := by
    simp [deriv, derivLoop, show ¬ p.n < 2 by omega]
  show Except.ok ((p.deriv 1).integOne a (p.call a)) = .ok p
  congr 1
  have hI := integOne_isIntegral hD a (p.call a)
  have hW := integOne_WF hD a (p.call a)
  obtain ⟨v, h1, h2, _⟩ := integStep_getD (p.deriv 1).xk (searchsorted (p.deriv 1).xk a)
    (a - (p.deriv 1).xk0.getD (searchsorted (p.deriv 1).xk a) 0) (p.deriv 1).c (p.call a) hD.len
    (searchsorted_le _ _)
  have hlen := hp.len
  have hDl : (p.deriv 1).c.length = p.c.length := by rw [hDc]; simp
  have hne : ∀ i, i ≤ p.xk.length → p.c.getD i [] ≠ [] := by
    intro i hi h
    have := hp.piece_length hi
    unfold piece at this
    rw [h] at this; simp at this; omega
  -- each piece is the piece of p plus a constant
  have hd : ∀ i, i ≤ p.xk.length → ∃ w : V,
      ((p.deriv 1).integOne a (p.call a)).c.getD i [] = addHead w (p.c.getD i []) := by
    intro i hi
    refine ⟨- (p.c.getD i []).headD 0 + (stepSum p.xk (List.map (integPiece K) (p.deriv 1).c) i + v),
      (h1 i (by omega)).trans ?_⟩
    rw [hDc, getD_map_ne _ _ _ (by omega) [], integPiece_derivPiece _ (hne i hi), addHead_addHead]; rfl
  choose! w hw using hd
  have hval : ∀ i x, i ≤ p.xk.length →
      pieceVal ((p.deriv 1).integOne a (p.call a)) i x = pieceVal p i x + w i := by
    intro i x hi
    unfold pieceVal piece
    rw [hw i hi, polyVal_addHead _ _ _ (hne i hi)]; rfl
  have hstep : ∀ j, j < p.xk.length → w j = w (j + 1) := by
    intro j hj
    have c1 := hc j hj
    have c2 := hI.cont j hj
    unfold MatchAt at c1 c2
    unfold pieceDeriv at c1 c2
    rw [polyDeriv_zero, polyDeriv_zero] at c1 c2
    have e1 := hval j (p.xk.getD j 0) (by omega)
    have e2 := hval (j + 1) (p.xk.getD j 0) (by omega)
    unfold pieceVal at e1 e2
    have c2' : polyVal (piece p j) (p.xk.getD j 0 - origin p.xk j) + w j =
      polyVal (piece p (j + 1)) (p.xk.getD j 0 - origin p.xk (j + 1)) + w (j + 1) := by
      rw [← e1, ← e2]; exact c2
    rw [c1] at c2'
    exact add_left_cancel c2'
  have hconst : ∀ j, j ≤ p.xk.length → w j = w 0 := by
    intro j
    induction j with
    | zero => simp
    | succ j ih => intro hj; rw [← hstep j (by omega)]; exact ih (by omega)
  have hw0 : w 0 = 0 := by
    obtain ⟨i, hi, _⟩ := existsUnique_inPiece hp.inc a
    have e := hI.val i hi
    rw [hval i a hi.1, ((C04_call_partial hp a).2 i hi).1, hconst i hi.1] at e
    simpa using e
  have hcc : ((p.deriv 1).integOne a (p.call a)).c = p.c := by
    apply List.ext_getElem
    · rw [hW.len, hp.len]; rfl
    · intro i hi1 hi2
      have := hw i (by omega)
      rw [hconst i (by omega), hw0, addHead_zero, List.getD_eq_getElem _ _ hi1,
        List.getD_eq_getElem _ _ hi2] at this
      exact this
  have hnn : ((p.deriv 1).integOne a (p.call a)).n = p.n := by
    simp only [integOne, hDn]; omega
  cases hq : (p.deriv 1).integOne a (p.call a) with
  | mk xk n c =>
    have hxk : ((p.deriv 1).integOne a (p.call a)).xk = p.xk := rfl
    rw [hq] at hcc hnn hxk
    simp only at hcc hnn hxk
    subst hcc hnn hxk
    rfl

/-- A continuous example for C11 (|x| with an extra quadratic piece). -/
def exQ : PwPoly ℚ ℚ := ⟨[0, 1], 3, [[0, -1, 0], [0, 1, 0], [1, 2, 3]]⟩
theorem exQ_WF : WF exQ :=
  ⟨by decide, by decide +kernel, rfl, by decide, by decide +kernel⟩
example : WF exQ ∧ Continuous exQ ∧ (exQ.deriv 1).integ 1 [exQ.call 5] 5 = .ok exQ := by
  have hc : Continuous exQ := by
    intro j hj
    have : j = 0 ∨ j = 1 := by simp [exQ] at hj; omega
    rcases this with rfl | rfl <;> (unfold MatchAt; decide +kernel)
  exact ⟨exQ_WF, hc, C11_integ_deriv exQ_WF (by decide) hc 5⟩

/-- **C12.** For `n` up to the degree (the default is the degree), `p.jumps(n)` has one entry per
knot with `n+1` rows; row `k` times `k!` is the jump of the `k`-th derivative across the knot, so all
rows are zero exactly when `p` has `n` continuous derivatives there.  A larger `n` raises ValueError
when the degree is at least 1. -/
theorem C12_jumps {p : PwPoly K V} (hp : WF p) (n : ℕ) :
    (n < p.n → ∃ J, p.jumps (some n) = .ok J ∧ (n + 1 = p.n → p.jumps none = .ok J) ∧
      J.length = p.xk.length ∧
      ∀ j < p.xk.length, (J.getD j []).length = n + 1 ∧
        (∀ k ≤ n, (Nat.factorial k : K) • (J.getD j []).getD k 0 =
          pieceDeriv p (j + 1) (p.xk.getD j 0) k - pieceDeriv p j (p.xk.getD j 0) k) ∧
        ((∀ k ≤ n, (J.getD j []).getD k 0 = 0) ↔ ∀ k ≤ n, MatchAt p k j)) ∧
    (p.n ≤ n → 2 ≤ p.n → p.jumps (some n) = .error .valueError) := by
  constructor
  swap
  · intro h h2
    simp only [jumps, Option.getD_some]
    rw [if_pos ⟨by omega, by omega⟩]
  intro hn
  have hpos := hp.pos
  have hlen := hp.len
  have hx0 : p.xk0.length = p.xk.length + 1 := mkXk0_length hp.ne
  set J := List.zipWith (fun (cm : List V) (cp : List V) =>
        cm.mapIdx (fun k v => (if p.n = 1 then cp.getD 0 0 else cp.getD k 0) - v))
      (List.zipWith (fun l dx => polyddx l dx n) p.c.dropLast (diffs p.xk0)) (p.c.drop 1) with hJ
  have hjl : J.length = p.xk.length := by
    simp [hJ, length_diffs, hx0, hlen]
  have key : ∀ j < p.xk.length, (J.getD j []).length = n + 1 ∧
        ∀ k ≤ n, (J.getD j []).getD k 0 = taylorCoeff (piece p (j + 1)) (0:K) k -
          taylorCoeff (piece p j) (p.xk.getD j 0 - origin p.xk j) k := by
    intro j hj
    have hpl := hp.piece_length (i := j) hj.le
    have hdj : (diffs p.xk0)[j]'(by rw [length_diffs, hx0]; omega) =
        p.xk.getD j 0 - origin p.xk j := by
      rw [diffs_getElem, xk0, mkXk0_getD hp.ne, mkXk0_getD hp.ne]
      simp [origin]
    have hpoly := polyddx_eq (piece p j) (p.xk.getD j 0 - origin p.xk j) n (by omega)
    have e : J.getD j [] = (tcList (piece p j) (p.xk.getD j 0 - origin p.xk j) n).mapIdx
        (fun k v => (if p.n = 1 then (piece p (j + 1)).getD 0 0 else (piece p (j + 1)).getD k 0) - v) := by
      rw [List.getD_eq_getElem _ _ (by omega)]
      simp only [hJ, List.getElem_zipWith, List.getElem_dropLast, List.getElem_drop, hdj]
      rw [← hpoly]
      have a1 : p.c[j]'(by omega) = piece p j := by
        rw [piece, List.getD_eq_getElem _ _ (by omega)]
      have a2 : p.c[1 + j]'(by omega) = piece p (j + 1) := by
        rw [piece, List.getD_eq_getElem _ _ (by omega)]; congr 1; omega
      rw [a1, a2]
    rw [e]
    refine ⟨by simp, fun k hk => ?_⟩
    have hkl : k < (tcList (piece p j) (p.xk.getD j 0 - origin p.xk j) n).length := by simp; omega
    rw [List.getD_eq_getElem?_getD, List.getElem?_mapIdx, List.getElem?_eq_getElem hkl]
    simp only [Option.map_some, Option.getD_some]
    have := tcList_getD (piece p j) (p.xk.getD j 0 - origin p.xk j) n k hk
    rw [List.getD_eq_getElem?_getD, List.getElem?_eq_getElem hkl, Option.getD_some] at this
    rw [this, taylorCoeff_at_zero]
    congr 1
    split
    · have : k = 0 := by omega
      subst this; rfl
    · rfl
  have hz : ∀ j, p.xk.getD j 0 - origin p.xk (j + 1) = 0 := by intro j; simp [origin]
  refine ⟨J, ?_, ?_, hjl, ?_⟩
  · simp only [jumps, Option.getD_some]
    rw [if_neg (by omega)]
  · intro h
    simp only [jumps, Option.getD_none]
    rw [if_neg (by omega), ← h, Nat.add_sub_cancel]
    rw [h]
  · intro j hj
    obtain ⟨k1, k2⟩ := key j hj
    have d : ∀ k ≤ n, (Nat.factorial k : K) • (J.getD j []).getD k 0 =
          pieceDeriv p (j + 1) (p.xk.getD j 0) k - pieceDeriv p j (p.xk.getD j 0) k := by
      intro k hk
      rw [k2 k hk, pieceDeriv, pieceDeriv, hz, polyDeriv_eq, polyDeriv_eq, smul_sub]
    refine ⟨k1, d, ?_⟩
    have fne : ∀ k : ℕ, (Nat.factorial k : K) ≠ 0 := fun k => by
      have := Nat.factorial_pos k
      positivity
    constructor
    · intro h k hk
      have := d k hk
      rw [h k hk, smul_zero] at this
      exact (sub_eq_zero.mp this.symm).symm
    · intro h k hk
      have := d k hk
      rw [← h k hk, sub_self] at this
      exact (smul_eq_zero.mp this).resolve_left (fne k)

/-- Consequence: a continuous `p` (zero row 0 everywhere) takes the same value from both sides. -/
theorem C12_continuous {p : PwPoly K V} (hp : WF p) :
    ∃ J, p.jumps (some 0) = .ok J ∧
      ((∀ j < p.xk.length, (J.getD j []).getD 0 0 = 0) ↔
        ∀ j < p.xk.length, pieceVal p j (p.xk.getD j 0) = pieceVal p (j + 1) (p.xk.getD j 0)) := by
  obtain ⟨J, h1, _, _, h4⟩ := (C12_jumps hp 0).1 (by have := hp.pos; omega)
  refine ⟨J, h1, ?_⟩
  have : ∀ j < p.xk.length, ((J.getD j []).getD 0 0 = 0 ↔
      pieceVal p j (p.xk.getD j 0) = pieceVal p (j + 1) (p.xk.getD j 0)) := by
    intro j hj
    have := (h4 j hj).2.2
    simp only [Nat.le_zero, forall_eq, MatchAt, pieceDeriv, polyDeriv_zero] at this
    exact this
  constructor
  · intro h j hj; exact (this j hj).mp (h j hj)
  · intro h j hj; exact (this j hj).mpr (h j hj)

example : exP.jumps = .ok [[2, -1], [0, 6]] := by decide +kernel

end integ
end Npplus
