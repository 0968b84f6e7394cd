import Verif.Lemmas.SplineMin
import Verif.Props.Calculus
import Verif.Props.SplineMin
import Verif.Props.Splfit
import Verif.Props.SplfitOk
import Mathlib.Analysis.Calculus.ContDiff.Operations
import Mathlib.Analysis.Calculus.IteratedDeriv.Defs

/-!
# Property C105: the number of continuous derivatives, in the sense of analysis

A piecewise polynomial is `m` times continuously differentiable on the whole line exactly when the derivatives of orders `0, ..., m` of
neighbouring pieces match at the knots (that is, when `jumps()` begins with zeros), and then `deriv(k)` is its derivative of order `k`.
For `spline`, periodic or not, and `splfit` this gives the number of derivatives promised.
-/

set_option linter.unusedSectionVars false
namespace Npplus
open Spec Set Filter Topology Spl Fit

section
variable {V : Type} [NormedAddCommGroup V] [NormedSpace ℝ V]

theorem matchAt_deriv {p : PwPoly ℝ V} (hp : WF p) (d k j : ℕ) : MatchAt (p.deriv d) k j ↔ MatchAt p (k + d) j := by
  unfold MatchAt
  rw [PwPoly.deriv_pieceDeriv hp, PwPoly.deriv_pieceDeriv hp, (C09_deriv hp d).2.1]

/-- **C105**: `p` has `m` continuous derivatives exactly when the derivatives of the pieces match up to order `m` at every knot. -/
theorem C105_contDiff_iff {p : PwPoly ℝ V} (hp : WF p) (m : ℕ) : ContDiff ℝ m p.call ↔ ∀ k ≤ m, ∀ j < p.xk.length, MatchAt p k j := by
  induction m generalizing p with
  | zero =>
    rw [show ((0 : ℕ) : WithTop ℕ∞) = 0 from rfl, contDiff_zero, C12_continuous_iff hp]
    exact ⟨fun h k hk => by obtain rfl : k = 0 := by omega
                            exact h, fun h => h 0 le_rfl⟩
  | succ m ih =>
    have hw := (C09_deriv hp 1).1
    have hxk := (C09_deriv hp 1).2.1
    rw [show ((m + 1 : ℕ) : WithTop ℕ∞) = (m : WithTop ℕ∞) + 1 from by push_cast; rfl, contDiff_succ_iff_deriv]
    have hom : ((m : ℕ) : WithTop ℕ∞) = ⊤ → False := fun h => by exact absurd h (by simp)
    constructor
    · rintro ⟨hd, -, hc⟩
      have hM : ∀ j < p.xk.length, MatchAt p 0 j ∧ MatchAt p 1 j := fun j hj => C09_not_differentiable hp hj (hd _)
      have e : deriv p.call = (p.deriv 1).call := funext fun x => (C09_hasDerivAt hp fun j hj _ => hM j hj).deriv
      rw [e, ih hw] at hc
      intro k hk j hj
      rcases k with _ | k
      · exact (hM j hj).1
      · exact (matchAt_deriv hp 1 k j).1 (hc k (by omega) j (by rwa [hxk]))
    · intro h
      have hD : ∀ x, HasDerivAt p.call ((p.deriv 1).call x) x := fun x =>
        C09_hasDerivAt hp fun j hj _ => ⟨h 0 (by omega) j hj, h 1 (by omega) j hj⟩
      refine ⟨fun x => (hD x).differentiableAt, fun h => (hom h).elim, ?_⟩
      rw [show deriv p.call = (p.deriv 1).call from funext fun x => (hD x).deriv, ih hw]
      exact fun k hk j hj => (matchAt_deriv hp 1 k j).2 (h (k + 1) (by omega) j (by rwa [hxk] at hj))

/-- **C105**: and then `p.deriv(k)` is the derivative of order `k`. -/
theorem C105_iteratedDeriv {p : PwPoly ℝ V} (hp : WF p) {m : ℕ} (h : ∀ k ≤ m, ∀ j < p.xk.length, MatchAt p k j) {k : ℕ} (hk : k ≤ m) (x : ℝ) :
    iteratedDeriv k p.call x = (p.deriv k).call x := by
  induction k generalizing x with
  | zero =>
    obtain ⟨i, hi, -⟩ := existsUnique_inPiece hp.inc x
    rw [iteratedDeriv_zero, ((C09_deriv hp 0).2.2.2 i x hi).1, call_eq_piece hp hi]
  | succ k ih =>
    rw [iteratedDeriv_succ, show iteratedDeriv k p.call = (p.deriv k).call from funext fun x => ih (by omega) x]
    obtain ⟨hw, hxk, -, hd⟩ := C09_deriv hp k
    have := (C09_hasDerivAt hw (x := x) fun j hj _ => ⟨(matchAt_deriv hp k 0 j).2 (h _ (by omega) j (hxk ▸ hj)),
      (matchAt_deriv hp k 1 j).2 (h _ (by omega) j (hxk ▸ hj))⟩).deriv
    rw [this]
    obtain ⟨i, hi, -⟩ := existsUnique_inPiece hp.inc x
    rw [((C09_deriv hp (k + 1)).2.2.2 i x hi).1, ((C09_deriv hw 1).2.2.2 i x (by rwa [hxk])).1, (hd i x hi).2, Nat.add_comm]

variable {inv : InvFun ℝ} {S : Scipy ℝ} {x : List ℝ} {y : List V} {n : ℕ} {lo hi : List (Option V)} {extrap : Option (ℕ × ℕ)}

/-- **C105**: `spline` returns a function with `n-1` continuous derivatives on the whole line; with `extrap=(a, b)` the least of `n-1`,
`a` and `b`. -/
theorem C105_spline {p : PwPoly ℝ V} (hinv : InvOK inv) (hS : ScipyOK S) (hs : x.Pairwise (· < ·))
    (h : spline inv S x y n lo hi false extrap = .ok (.pw p)) :
    ContDiff ℝ ((min (n - 1) (min (extrap.getD (n - 1, n - 1)).1 (extrap.getD (n - 1, n - 1)).2) : ℕ) : WithTop ℕ∞) p.call := by
  obtain ⟨hw, hxk, -, -, -, hM⟩ := C24_spline hinv hS hs h
  obtain ⟨hx, -, -, -, -, -⟩ := spline_nonper hs h
  have hab : extrap = some ((extrap.getD (n - 1, n - 1)).1, (extrap.getD (n - 1, n - 1)).2) ∨
      (extrap = none ∧ (extrap.getD (n - 1, n - 1)).1 = n - 1 ∧ (extrap.getD (n - 1, n - 1)).2 = n - 1) := by
    cases extrap with
    | none => exact .inr ⟨rfl, rfl, rfl⟩
    | some e => exact .inl rfl
  obtain ⟨-, -, h0, hl, -, -⟩ := C28_extrapolation hinv hS hs h hab
  rw [C105_contDiff_iff hw]
  intro k hk j hj
  rw [hxk] at hj
  rcases Nat.eq_zero_or_pos j with e | e
  · subst e; exact h0 k (by omega)
  · by_cases e' : j + 1 < x.length
    · exact hM j e e' k (by omega)
    · obtain rfl : j = x.length - 1 := by omega
      exact hl k (by omega)

end

section
variable {V : Type} [NormedAddCommGroup V] [NormedSpace ℝ V]

/-- a chain of derivatives -/
theorem contDiff_chain {m : ℕ} {F : ℕ → ℝ → V} (hd : ∀ k < m, ∀ t, HasDerivAt (F k) (F (k + 1) t) t) (hc : _root_.Continuous (F m)) :
    ContDiff ℝ m (F 0) ∧ ∀ k ≤ m, iteratedDeriv k (F 0) = F k := by
  constructor
  · induction m generalizing F with
    | zero => exact contDiff_zero.2 hc
    | succ m ih =>
      rw [show ((m + 1 : ℕ) : WithTop ℕ∞) = (m : WithTop ℕ∞) + 1 from by push_cast; rfl, contDiff_succ_iff_deriv]
      refine ⟨fun t => (hd 0 (by omega) t).differentiableAt, fun h => absurd h (by simp), ?_⟩
      rw [show deriv (F 0) = F 1 from funext fun t => (hd 0 (by omega) t).deriv]
      exact ih (F := fun k => F (k + 1)) (fun k hk t => hd (k + 1) (by omega) t) hc
  · intro k hk
    induction k with
    | zero => exact iteratedDeriv_zero
    | succ k ih => rw [iteratedDeriv_succ, ih (by omega)]; exact funext fun t => (hd k (by omega) t).deriv


/-- the derivatives of the pieces, continued with period `per` from the half-open interval `(a, a + per]` -/
noncomputable def wrapDeriv (p : PwPoly ℝ V) {per : ℝ} (hper : 0 < per) (a : ℝ) (k : ℕ) (t : ℝ) : V := (p.deriv k).call (toIocMod hper a t)

theorem wrap_periodic (p : PwPoly ℝ V) {per : ℝ} (hper : 0 < per) (a : ℝ) (k : ℕ) (t : ℝ) (m : ℤ) :
    wrapDeriv p hper a k (t - m • per) = wrapDeriv p hper a k t := by
  unfold wrapDeriv
  rw [toIocMod_sub_zsmul]

theorem wrap_self (p : PwPoly ℝ V) {per : ℝ} (hper : 0 < per) {a : ℝ} (k : ℕ) {t : ℝ} (h1 : a < t) (h2 : t ≤ a + per) :
    wrapDeriv p hper a k t = (p.deriv k).call t := by
  unfold wrapDeriv
  rw [(toIocMod_eq_self hper).2 ⟨h1, h2⟩]

variable {p : PwPoly ℝ V} {per : ℝ} {N : ℕ}

theorem deriv_call_piece (hp : WF p) {k i : ℕ} {t : ℝ} (hi : InPiece p.xk i t) : (p.deriv k).call t = pieceDeriv p i t k :=
  ((C09_deriv hp k).2.2.2 i t hi).1

theorem inPiece_Ioc {xk : List ℝ} (hs : xk.Pairwise (· < ·)) {i : ℕ} (hi : i + 1 < xk.length) {t : ℝ} (h1 : xk.getD i 0 < t) (h2 : t ≤ xk.getD (i + 1) 0) :
    InPiece xk (i + 1) t := by
  refine ⟨by omega, fun j hj hji => ?_, fun j hj hji => ?_⟩
  · rw [← List.getD_eq_getElem _ 0 hj]
    exact (sorted_le hs (by omega) (by omega)).trans_lt h1
  · rw [← List.getD_eq_getElem _ 0 hj]
    exact h2.trans (sorted_le hs (by omega) hj)

/-- inside the period -/
theorem wrap_hasDerivAt_inner (hp : WF p) (hper : 0 < per) (hl : 2 ≤ p.xk.length) (ep : p.xk.getD (p.xk.length - 1) 0 = p.xk.getD 0 0 + per) {k : ℕ}
    (hM : ∀ j, 0 < j → j + 1 < p.xk.length → MatchAt p k j ∧ MatchAt p (k + 1) j) {t : ℝ} (h1 : p.xk.getD 0 0 < t) (h2 : t < p.xk.getD 0 0 + per) :
    HasDerivAt (wrapDeriv p hper (p.xk.getD 0 0) k) (wrapDeriv p hper (p.xk.getD 0 0) (k + 1) t) t := by
  have e : wrapDeriv p hper (p.xk.getD 0 0) k =ᶠ[𝓝 t] (p.deriv k).call := by
    filter_upwards [lt_mem_nhds h1, gt_mem_nhds h2] with s hs1 hs2 using wrap_self p hper k hs1 hs2.le
  refine HasDerivAt.congr_of_eventuallyEq ?_ e
  rw [wrap_self p hper (k + 1) h1 h2.le]
  obtain ⟨hw, hxk, -, hd⟩ := C09_deriv hp k
  obtain ⟨i, hi, -⟩ := existsUnique_inPiece hp.inc t
  have := C09_hasDerivAt hw (x := t) fun j hj et => by
    have hj' : j < p.xk.length := hxk ▸ hj
    have et' : t = p.xk.getD j 0 := by rw [et, List.getD_eq_getElem _ _ hj']; simp only [hxk]
    have hj0 : 0 < j := by
      by_contra h
      obtain rfl : j = 0 := by omega
      exact absurd et' h1.ne'
    have hj1 : j + 1 < p.xk.length := by
      by_contra h
      obtain rfl : j = p.xk.length - 1 := by omega
      rw [ep] at et'
      exact absurd et' h2.ne
    have hM := hM j hj0 hj1
    exact ⟨(matchAt_deriv hp k 0 j).2 (by simpa using hM.1), (matchAt_deriv hp k 1 j).2 (by simpa [Nat.add_comm] using hM.2)⟩
  rwa [((C09_deriv hw 1).2.2.2 i t (by rwa [hxk])).1, (hd i t hi).2, Nat.add_comm, ← deriv_call_piece hp hi] at this

theorem wrap_continuousAt_inner (hp : WF p) (hper : 0 < per) (hl : 2 ≤ p.xk.length) (ep : p.xk.getD (p.xk.length - 1) 0 = p.xk.getD 0 0 + per) {k : ℕ}
    (hM : ∀ j, 0 < j → j + 1 < p.xk.length → MatchAt p k j) {t : ℝ} (h1 : p.xk.getD 0 0 < t) (h2 : t < p.xk.getD 0 0 + per) :
    ContinuousAt (wrapDeriv p hper (p.xk.getD 0 0) k) t := by
  have e : wrapDeriv p hper (p.xk.getD 0 0) k =ᶠ[𝓝 t] (p.deriv k).call := by
    filter_upwards [lt_mem_nhds h1, gt_mem_nhds h2] with s hs1 hs2 using wrap_self p hper k hs1 hs2.le
  refine ContinuousAt.congr ?_ e.symm
  obtain ⟨hw, hxk, -, hd⟩ := C09_deriv hp k
  refine call_continuousAt hw fun j hj et => ?_
  have hj' : j < p.xk.length := hxk ▸ hj
  have et' : t = p.xk.getD j 0 := by rw [et, List.getD_eq_getElem _ _ hj']; simp only [hxk]
  have hj0 : 0 < j := by
    by_contra h
    obtain rfl : j = 0 := by omega
    exact absurd et' h1.ne'
  have hj1 : j + 1 < p.xk.length := by
    by_contra h
    obtain rfl : j = p.xk.length - 1 := by omega
    rw [ep] at et'
    exact absurd et' h2.ne
  exact (matchAt_deriv hp k 0 j).2 (by simpa using hM j hj0 hj1)

/-- at the end of the period: what the function is on the two sides -/
theorem wrap_sides (hp : WF p) (hper : 0 < per) (hl : 2 ≤ p.xk.length) (ep : p.xk.getD (p.xk.length - 1) 0 = p.xk.getD 0 0 + per) {k : ℕ}
    (hE : pieceDeriv p (p.xk.length - 1) (p.xk.getD (p.xk.length - 1) 0) k = pieceDeriv p 1 (p.xk.getD 0 0) k) :
    (wrapDeriv p hper (p.xk.getD 0 0) k =ᶠ[𝓝[≤] (p.xk.getD 0 0 + per)] fun t => pieceDeriv p (p.xk.length - 1) t k) ∧
    (wrapDeriv p hper (p.xk.getD 0 0) k =ᶠ[𝓝[≥] (p.xk.getD 0 0 + per)] fun t => pieceDeriv p 1 (t - per) k) ∧
    wrapDeriv p hper (p.xk.getD 0 0) k (p.xk.getD 0 0 + per) = pieceDeriv p (p.xk.length - 1) (p.xk.getD 0 0 + per) k := by
  obtain ⟨i, hi⟩ : ∃ i, i + 2 = p.xk.length := ⟨p.xk.length - 2, by omega⟩
  have ei : p.xk.length - 1 = i + 1 := by omega
  have h2 : p.xk.getD i 0 < p.xk.getD (i + 1) 0 := sorted_lt hp.inc (by omega) (by omega)
  have h3 : p.xk.getD 0 0 ≤ p.xk.getD i 0 := sorted_le hp.inc (by omega) (by omega)
  have h01 : p.xk.getD 0 0 < p.xk.getD 1 0 := sorted_lt hp.inc (by omega) (by omega)
  have h1l : p.xk.getD 1 0 ≤ p.xk.getD (i + 1) 0 := sorted_le hp.inc (by omega) (by omega)
  rw [ei] at ep hE ⊢
  have hlast : ∀ t, p.xk.getD i 0 < t → t ≤ p.xk.getD 0 0 + per → wrapDeriv p hper (p.xk.getD 0 0) k t = pieceDeriv p (i + 1) t k := fun t a b => by
    rw [wrap_self p hper k (h3.trans_lt a) b, deriv_call_piece hp (inPiece_Ioc hp.inc (by omega) a (by rwa [ep]))]
  refine ⟨?_, ?_, hlast _ (by rw [← ep]; exact h2) le_rfl⟩
  · filter_upwards [self_mem_nhdsWithin, mem_nhdsWithin_of_mem_nhds (lt_mem_nhds (show p.xk.getD i 0 < p.xk.getD 0 0 + per by rw [← ep]; exact h2))] with s a b
    exact hlast s b a
  · filter_upwards [self_mem_nhdsWithin, mem_nhdsWithin_of_mem_nhds (gt_mem_nhds (show p.xk.getD 0 0 + per < p.xk.getD 1 0 + per by linarith))] with s a b
    rcases eq_or_lt_of_le (show p.xk.getD 0 0 + per ≤ s from a) with e | e
    · rw [← e, hlast _ (by rw [← ep]; exact h2) le_rfl, ← ep, hE, ep, add_sub_cancel_right]
    · have := wrap_periodic p hper (p.xk.getD 0 0) k s 1
      rw [one_smul] at this
      rw [← this, wrap_self p hper k (by linarith) (by linarith), deriv_call_piece hp (inPiece_Ioc (i := 0) hp.inc (by omega) (by linarith) (by simp only [Nat.zero_add]; linarith))]

theorem wrap_chain (hp : WF p) (hper : 0 < per) (hl : 2 ≤ p.xk.length) (ep : p.xk.getD (p.xk.length - 1) 0 = p.xk.getD 0 0 + per)
    (hM : ∀ j, 0 < j → j + 1 < p.xk.length → ∀ k ≤ N, MatchAt p k j)
    (hE : ∀ k ≤ N, pieceDeriv p (p.xk.length - 1) (p.xk.getD (p.xk.length - 1) 0) k = pieceDeriv p 1 (p.xk.getD 0 0) k) :
    (∀ k < N, ∀ t, HasDerivAt (wrapDeriv p hper (p.xk.getD 0 0) k) (wrapDeriv p hper (p.xk.getD 0 0) (k + 1) t) t) ∧
      _root_.Continuous (wrapDeriv p hper (p.xk.getD 0 0) N) := by
  have red : ∀ t, ∃ m : ℤ, p.xk.getD 0 0 < t - m • per ∧ t - m • per ≤ p.xk.getD 0 0 + per := fun t =>
    ⟨toIocDiv hper (p.xk.getD 0 0) t, (sub_toIocDiv_zsmul_mem_Ioc hper (p.xk.getD 0 0) t).1, (sub_toIocDiv_zsmul_mem_Ioc hper (p.xk.getD 0 0) t).2⟩
  constructor
  · intro k hk t
    obtain ⟨m, h1, h2⟩ := red t
    have key : HasDerivAt (wrapDeriv p hper (p.xk.getD 0 0) k) (wrapDeriv p hper (p.xk.getD 0 0) (k + 1) (t - m • per)) (t - m • per) := by
      rcases eq_or_lt_of_le h2 with e | e
      · rw [e]
        obtain ⟨l, r, v⟩ := wrap_sides hp hper hl ep (hE k (by omega))
        obtain ⟨-, -, v'⟩ := wrap_sides hp hper hl ep (hE (k + 1) (by omega))
        have hL : HasDerivWithinAt (wrapDeriv p hper (p.xk.getD 0 0) k) (wrapDeriv p hper (p.xk.getD 0 0) (k + 1) (p.xk.getD 0 0 + per)) (Iic (p.xk.getD 0 0 + per))
            (p.xk.getD 0 0 + per) := by
          rw [v']
          exact (pieceDeriv_hasDerivAt p _ _ k).hasDerivWithinAt.congr_of_eventuallyEq l v
        have hR : HasDerivWithinAt (wrapDeriv p hper (p.xk.getD 0 0) k) (wrapDeriv p hper (p.xk.getD 0 0) (k + 1) (p.xk.getD 0 0 + per)) (Ici (p.xk.getD 0 0 + per))
            (p.xk.getD 0 0 + per) := by
          have h := (HasDerivAt.comp_sub_const (p.xk.getD 0 0 + per) per (by rw [add_sub_cancel_right]; exact pieceDeriv_hasDerivAt p 1 (p.xk.getD 0 0) k)).hasDerivWithinAt
            (s := Ici (p.xk.getD 0 0 + per))
          rw [v', ← ep, hE (k + 1) (by omega), ep]
          refine h.congr_of_eventuallyEq r ?_
          rw [v, ← ep, hE k (by omega), ep, add_sub_cancel_right]
        have := hL.union hR
        rwa [Iic_union_Ici, hasDerivWithinAt_univ] at this
      · exact wrap_hasDerivAt_inner hp hper hl ep (fun j a b => ⟨hM j a b k (by omega), hM j a b (k + 1) (by omega)⟩) h1 e
    have := HasDerivAt.comp_sub_const t (m • per) key
    rw [wrap_periodic] at this
    simpa only [wrap_periodic] using this
  · refine continuous_iff_continuousAt.2 fun t => ?_
    obtain ⟨m, h1, h2⟩ := red t
    have key : ContinuousAt (wrapDeriv p hper (p.xk.getD 0 0) N) (t - m • per) := by
      rcases eq_or_lt_of_le h2 with e | e
      · rw [e]
        obtain ⟨l, r, v⟩ := wrap_sides hp hper hl ep (hE N le_rfl)
        rw [continuousAt_iff_continuous_left_right]
        constructor
        · exact (pieceDeriv_continuous p _ N).continuousWithinAt.congr_of_eventuallyEq l v
        · refine ((pieceDeriv_continuous p 1 N).comp (continuous_id.sub continuous_const)).continuousWithinAt.congr_of_eventuallyEq r ?_
          rw [v, ← ep, hE N le_rfl, ep]
          simp
      · exact wrap_continuousAt_inner hp hper hl ep (fun j a b => hM j a b N le_rfl) h1 e
    have := ContinuousAt.comp (f := fun s => s - m • per) (x := t) key (continuous_id.sub continuous_const).continuousAt
    refine this.congr (Eventually.of_forall fun s => ?_)
    exact wrap_periodic p hper _ N s m

end

section
variable {V : Type} [NormedAddCommGroup V] [NormedSpace ℝ V]
variable {inv : InvFun ℝ} {S : Scipy ℝ} {x : List ℝ} {y : List V} {n : ℕ} {lo hi : List (Option V)} {extrap : Option (ℕ × ℕ)}

/-- **C105**: a periodic spline is a function on the whole line, periodic, through the points, with `n-1` continuous derivatives everywhere,
also at the ends of the periods; within the period `P(t, nd)` returns these derivatives. -/
theorem C105_periodic {P : PerPwPoly ℝ V} (hinv : InvOK inv) (hS : ScipyOK S) (hs : x.Pairwise (· < ·))
    (h : spline inv S x y n lo hi true extrap = .ok (.per P)) :
    ∃ f : ℝ → V, (∀ t, P.call t = .ok (f t)) ∧ Function.Periodic f (x.getD (x.length - 1) 0 - x.getD 0 0) ∧ ContDiff ℝ ((n - 1 : ℕ) : WithTop ℕ∞) f ∧
      (∀ j, j + 1 < x.length → f (x.getD j 0) = y.getD j 0) ∧
      ∀ t, x.getD 0 0 < t → t < x.getD (x.length - 1) 0 → ∀ nd ≤ n - 1, ∃ l, P.callN t nd = .ok l ∧ l.length = nd + 1 ∧
        ∀ k ≤ nd, l.getD k 0 = iteratedDeriv k f t := by
  obtain ⟨per, hP, eper, hper, hw, hxk, hdeg, hcall, hv, hvl, hin, hM, hE⟩ := C27_periodic hinv hS hs h
  have hx := (spline_checks hs h).1
  have hn := (spline_checks hs h).2.2.1
  have hst := C27_start hinv hS hs h
  subst hxk
  have ep : P.base.xk.getD (P.base.xk.length - 1) 0 = P.base.xk.getD 0 0 + per := by rw [eper]; ring
  obtain ⟨c1, c2⟩ := wrap_chain (N := n - 1) hw hper hx ep hM hE
  obtain ⟨d1, d2⟩ := contDiff_chain c1 c2
  set f := wrapDeriv P.base hper (P.base.xk.getD 0 0) 0 with hf
  have hfper : ∀ t (m : ℤ), f (t - m • per) = f t := fun t m => wrap_periodic _ hper _ 0 t m
  have hPf : ∀ t, P.call t = .ok (f t) := by
    intro t
    set m := toIocDiv hper (P.base.xk.getD 0 0) t
    obtain ⟨h1, h2⟩ := sub_toIocDiv_zsmul_mem_Ioc hper (P.base.xk.getD 0 0) t
    have e1 := hcall (t - m • per) m
    rw [show t - m • per + (m : ℝ) * per = t by rw [zsmul_eq_mul]; ring] at e1
    rw [e1, ← hfper t m]
    rcases eq_or_lt_of_le h2 with e | e
    · obtain ⟨-, -, v⟩ := wrap_sides hw hper hx ep (hE 0 (by omega))
      change P.call (t - toIocDiv hper (P.base.xk.getD 0 0) t • per) = .ok (f (t - toIocDiv hper (P.base.xk.getD 0 0) t • per))
      rw [e, ← ep, hvl, hf, ep, v, ← ep, hE 0 (by omega), hst]
    · obtain ⟨i, hi, -⟩ := existsUnique_inPiece hw.inc (t - toIocDiv hper (P.base.xk.getD 0 0) t • per)
      change P.call (t - toIocDiv hper (P.base.xk.getD 0 0) t • per) = .ok (f (t - toIocDiv hper (P.base.xk.getD 0 0) t • per))
      rw [hin _ h1 (by rw [ep]; exact e) i hi, hf, wrap_self _ hper 0 h1 h2, deriv_call_piece hw hi, pieceVal_eq]
  refine ⟨f, hPf, fun t => ?_, d1, fun j hj => ?_, fun t h1 h2 nd hnd => ?_⟩
  · have := hfper (t + per) 1
    rw [one_smul, add_sub_cancel_right] at this
    rw [← eper, this]
  · have := hv j hj
    rw [hPf] at this
    exact Except.ok.inj this
  · obtain ⟨i, hi, -⟩ := existsUnique_inPiece hw.inc t
    have e : P.callN t nd = .ok (P.base.callN t nd) := by
      unfold PerPwPoly.callN
      rw [hP]
      simp only
      rw [pmod_eq_self (by linarith) (by linarith), add_sub_cancel]
    obtain ⟨e1, e2⟩ := ((C04_call_partial hw t).2 i hi).2 nd (.inl (by unfold PwPoly.deg at hdeg; omega))
    refine ⟨_, e, e1, fun k hk => ?_⟩
    rw [e2 k hk, d2 k (by omega), wrap_self _ hper k h1 (by rw [← ep]; exact h2.le), deriv_call_piece hw hi]

end

/-- **C105**: the function returned by `splfit` has the number `nc` of continuous derivatives asked for (default `n-1`), on the whole line
without `extrap`. -/
theorem C105_splfit {m n : ℕ} {S : Scipy ℝ} {xk x : List ℝ} {y : List (Fin m → ℝ)} {sigy : Option (List (Fin m → ℝ))} {ncArg : Option ℤ}
    {lo hi : List (Fin m → ℝ)} {extrap : Option (ℕ × ℕ)} {out : SplineOut ℝ (Fin m → ℝ)} {cost : Cost ℝ m} (hS : ScipyOK S) (hs : xk.Pairwise (· < ·))
    (h : splfit S xk x y sigy n ncArg lo hi false extrap = .ok (out, cost)) :
    ∃ p, ∃ nc : ℕ, out = .pw p ∧ (ncArg = none ∧ nc + 1 = n ∨ ncArg = some (nc : ℤ)) ∧
      ContDiff ℝ ((min nc (min (extrap.getD (nc, nc)).1 (extrap.getD (nc, nc)).2) : ℕ) : WithTop ℕ∞) p.call := by
  obtain ⟨p, xk', nc, ho, hk, hw, hxk, -, hor, hnc, hM, -, -, h0, hl⟩ := C33_constraints hS hs h
  refine ⟨p, nc, ho, hor, ?_⟩
  rw [C105_contDiff_iff hw]
  intro k hk j hj
  rw [hxk] at hj
  rcases Nat.eq_zero_or_pos j with e | e
  · subst e; exact (h0 k).1 (by omega)
  · by_cases e' : j + 1 < xk'.length
    · exact hM j k e e' (by omega)
    · obtain rfl : j = xk'.length - 1 := by omega
      exact (hl k (by omega)).1 (by omega)

/-- Non-trivial instances: cubic splines through three points, plain (two continuous derivatives everywhere, also beyond the ends; only the
slope beyond the last point with `extrap=(2, 1)`) and periodic. -/
example : (∃ p, spline (adjInv ℝ) (exactScipy ℝ) [0, 1, 3] [(0 : ℝ), 1, 0] 3 = .ok (.pw p) ∧ ContDiff ℝ 2 p.call) ∧
    (∃ p, spline (adjInv ℝ) (exactScipy ℝ) [0, 1, 3] [(0 : ℝ), 1, 0] 3 [] [] false (some (2, 1)) = .ok (.pw p) ∧ ContDiff ℝ 1 p.call) ∧
    ∃ P, ∃ f : ℝ → ℝ, spline (adjInv ℝ) (exactScipy ℝ) [0, 1, 3] [(0 : ℝ), 1, 0] 3 [] [] true = .ok (.per P) ∧ (∀ t, P.call t = .ok (f t)) ∧
      Function.Periodic f 3 ∧ ContDiff ℝ 2 f ∧ f 1 = 1 ∧ f 301 = 1 := by
  have hs : [(0 : ℝ), 1, 3].Pairwise (· < ·) := by norm_num
  obtain ⟨p, h⟩ := (C24_default_iff (inv := adjInv ℝ) (S := exactScipy ℝ) (x := [0, 1, 3]) (y := [(0 : ℝ), 1, 0]) (n := 3) (extrap := none)
    exactScipy_ok hs (by simp) (by simp) (by omega)).1 (by simp)
  obtain ⟨q, h'⟩ := (C24_default_iff (inv := adjInv ℝ) (S := exactScipy ℝ) (x := [0, 1, 3]) (y := [(0 : ℝ), 1, 0]) (n := 3) (extrap := some (2, 1))
    exactScipy_ok hs (by simp) (by simp) (by omega)).1 (by simp)
  obtain ⟨P, hP⟩ := (C27_returns_iff (inv := adjInv ℝ) (S := exactScipy ℝ) (x := [0, 1, 3]) (y := [(0 : ℝ), 1, 0]) (n := 3) exactScipy_ok hs (by simp) (by simp)
    (by omega)).1 (.inl (by decide))
  obtain ⟨f, h1, h2, h3, h4, -⟩ := C105_periodic adjInv_ok exactScipy_ok hs hP
  refine ⟨⟨p, h, by simpa using C105_spline adjInv_ok exactScipy_ok hs h⟩, ⟨q, h', by simpa using C105_spline adjInv_ok exactScipy_ok hs h'⟩,
    P, f, hP, h1, by simpa using h2, by simpa using h3, by simpa using h4 1 (by simp), ?_⟩
  have h2 : Function.Periodic f 3 := by simpa using h2
  have := h2.nat_mul 100 1
  rw [show (1 : ℝ) + (100 : ℕ) * 3 = 301 by norm_num] at this
  rw [this]
  simpa using h4 1 (by simp)

/-- |x| has no continuous derivative. -/
example : ContDiff ℝ (0 : ℕ) exAbs.call ∧ ¬ ContDiff ℝ (1 : ℕ) exAbs.call := by
  rw [C105_contDiff_iff exAbs_WF, C105_contDiff_iff exAbs_WF]
  constructor
  · intro k hk j hj
    obtain rfl : k = 0 := by omega
    obtain rfl : j = 0 := by simpa [exAbs] using hj
    simp [MatchAt, pieceDeriv, piece, polyDeriv, exAbs, Finset.sum_range_succ, origin]
  · intro h
    have := h 1 le_rfl 0 (by simp [exAbs])
    simp [MatchAt, pieceDeriv, piece, polyDeriv, exAbs, Finset.sum_range_succ, origin] at this
    norm_num at this

/-- Non-trivial instance of `C105_splfit`: a parabola fitted to three points on one interval. -/
example : ∃ out cost, splfit (exactScipy ℝ) [0, 2] [1/2, 1, 3/2] [fun _ : Fin 1 => (0 : ℝ), fun _ => 1, fun _ => 0] none 2 = .ok (out, cost) := by
  have hk : FitKnots [(0 : ℝ), 2] [1/2, 1, 3/2] [0, 2] := by
    refine ⟨by norm_num, fun t => ⟨Or.inl, ?_⟩⟩
    rintro (h | ⟨h, -, h'⟩ | ⟨h, -, h'⟩)
    · exact h
    · have := h' 0 (by simp)
      simp at h
      rcases h with rfl | rfl | rfl <;> norm_num at this
    · have := h' 2 (by simp)
      simp at h
      rcases h with rfl | rfl | rfl <;> norm_num at this
  refine C34_succeeds_data (nc := 1) (j0 := 0) exactScipy_ok (by norm_num) (by simp) (by simp) (by simp) (by simp) (by simp)
    (.inl ⟨rfl, rfl⟩) (by omega) (by simp) (by simp) (by simp) (by simp) (by simp) hk (by simp) ⟨{1/2, 1, 3/2}, ?_, ?_⟩ ?_
  · rw [Finset.card_insert_of_notMem (by norm_num), Finset.card_insert_of_notMem (by norm_num), Finset.card_singleton]
  · intro t ht
    simp at ht
    rcases ht with rfl | rfl | rfl <;> norm_num
  · intro j hj h0
    simp at hj
    omega

end Npplus
