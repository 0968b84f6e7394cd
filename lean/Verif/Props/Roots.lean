import Mathlib.Algebra.Polynomial.Roots
import Verif.Lemmas.RootsNl
import Mathlib.Tactic.NormNum

/-!
# C21, C22: `PwPoly.roots`

The code has several defects (see the refutations in `Props/RootsEx.lean`), so that the two properties
hold only for functions whose pieces satisfy the conditions spelled out in the hypotheses.
-/

set_option linter.unusedSectionVars false
set_option linter.unusedVariables false

namespace Npplus

open Spec Finset Roots

variable {K : Type} [Field K] [LinearOrder K] [IsStrictOrderedRing K]

/-- A root of a piece, inside the piece or at its left end, is a solution. -/
theorem sol_of_unit {p : PwPoly K K} (hp : WF p) {v : K} {i : ℕ} (hi : i ≤ p.xk.length) {t : K} (hr : UnitRoot p v i t)
    (h0 : i = 0 → t ≤ 0) (h1 : i ≠ 0 → 0 ≤ t) (h2 : i ≠ 0 → i < p.xk.length → t ≤ 1) :
    Solution p v (t * width p.xk i + origin p.xk i) := by
  have hw := width_pos hp.ne hp.inc i
  have hlen : 0 < p.xk.length := List.length_pos_iff.mpr hp.ne
  by_cases hz : i ≠ 0 ∧ t = 0
  · obtain ⟨hi0, rfl⟩ := hz
    right
    refine ⟨i - 1, ⟨by omega, ?_⟩, by simp [origin]⟩
    have e : origin p.xk i = p.xk.getD (i - 1) 0 := rfl
    unfold UnitRoot at hr
    rw [zero_mul, zero_add, e] at hr
    rw [show i - 1 + 1 = i by omega, hr, sub_self, mul_zero]
  · left
    have hin : InPiece p.xk i (t * width p.xk i + origin p.xk i) := by
      have hmono : ∀ a b, a ≤ b → (hb : b < p.xk.length) → p.xk.getD a 0 ≤ p.xk.getD b 0 := by
        intro a b hab hb
        rw [List.getD_eq_getElem _ _ (by omega), List.getD_eq_getElem _ _ hb]
        rcases Nat.lt_or_ge a b with h | h
        · exact (List.pairwise_iff_getElem.mp hp.inc _ _ _ _ h).le
        · have : a = b := by omega
          subst this; exact le_rfl
      refine ⟨hi, fun j hj hji => ?_, fun j hj hij => ?_⟩
      · have ht : 0 < t := lt_of_le_of_ne (h1 (by omega)) (fun h => hz ⟨by omega, h.symm⟩)
        have := hmono j (i - 1) (by omega) (by omega)
        rw [List.getD_eq_getElem _ _ hj] at this
        have e : origin p.xk i = p.xk.getD (i - 1) 0 := rfl
        rw [e]
        have := mul_pos ht hw
        linarith
      · have hij' := hmono i j hij hj
        rw [List.getD_eq_getElem _ _ hj] at hij'
        refine le_trans ?_ hij'
        have e := end_eq hp.ne (show i < p.xk.length by omega)
        by_cases h : i = 0
        · rw [if_pos h] at e
          have := mul_nonpos_of_nonpos_of_nonneg (h0 h) hw.le
          linarith
        · rw [if_neg h] at e
          have := mul_le_mul_of_nonneg_right (h2 h (by omega)) hw.le
          linarith
    rw [PwPoly.call_eq hp, hin.eq_searchsorted]
    exact hr

/-- A solution inside a piece which is not identically `v` is found by the tests of the code. -/
theorem unit_of_sol {p : PwPoly K K} (hp : WF p) {v x : K} {i : ℕ} (hin : InPiece p.xk i x) (hx : p.call x = v)
    (hne : ∃ y, pieceVal p i y ≠ v) :
    (∃ j, JumpsAcross p v j ∧ x = p.xk.getD j 0) ∨
    ∃ t, UnitRoot p v i t ∧ x = t * width p.xk i + origin p.xk i ∧ MayVanish p v i ∧ (i = 0 → t ≤ 0) ∧
      (i ≠ 0 → 0 ≤ t) ∧ (i < p.xk.length → t ≤ 1) := by
  have hi := hin.1
  have hw := width_pos hp.ne hp.inc i
  have hlen : 0 < p.xk.length := List.length_pos_iff.mpr hp.ne
  have hcall : pieceVal p i x = v := by rw [← hin.eq_searchsorted, ← PwPoly.call_eq hp, hx]
  by_cases hk : i < p.xk.length ∧ x = p.xk.getD i 0
  · left
    refine ⟨i, ⟨hk.1, ?_⟩, hk.2⟩
    rw [← hk.2, hcall, sub_self, zero_mul]
  · right
    set t := (x - origin p.xk i) / width p.xk i with ht
    have hxt : t * width p.xk i + origin p.xk i = x := by
      rw [ht, div_mul_cancel₀ _ hw.ne']; ring
    have hroot : UnitRoot p v i t := by unfold UnitRoot; rw [hxt, hcall]
    have hcoef : ∃ k < p.n, unitCoef p v i k ≠ 0 := by
      by_contra hc
      push Not at hc
      obtain ⟨y, hy⟩ := hne
      apply hy
      have := unit_val hp v hi ((y - origin p.xk i) / width p.xk i)
      rw [div_mul_cancel₀ _ hw.ne', sub_add_cancel, sum_eq_zero (fun k hk => by rw [hc k (mem_range.mp hk), zero_mul])] at this
      exact (sub_eq_zero.mp this.symm)
    have hpos : i ≠ 0 → 0 < t := by
      intro h
      rw [ht]
      refine div_pos ?_ hw
      have := hin.2.1 (i - 1) (by omega) (by omega)
      rw [sub_pos]
      show p.xk.getD (i - 1) 0 < x
      rw [List.getD_eq_getElem _ _ (by omega)]; exact this
    have hup : i < p.xk.length → x < p.xk.getD i 0 := by
      intro h
      refine lt_of_le_of_ne ?_ (fun h' => hk ⟨h, h'⟩)
      rw [List.getD_eq_getElem _ _ h]
      exact hin.2.2 i h le_rfl
    have hle : i < p.xk.length → t ≤ (if i = 0 then 0 else 1) := by
      intro h
      have h1 := hup h
      have e := end_eq hp.ne h
      rw [ht, div_le_iff₀ hw]
      by_cases h0 : i = 0
      · rw [if_pos h0] at e ⊢; linarith
      · rw [if_neg h0] at e ⊢; linarith
    refine ⟨t, hroot, hxt.symm, ⟨hi, fun h => ?_, fun h => ?_⟩, fun h => ?_, fun h => (hpos h).le, fun h => ?_⟩
    · refine descartes (hpos (by omega)) ?_ hcoef
      rw [unit_val hp v hi, hroot, sub_self]
    · set s := (p.xk.getD i 0 - x) / width p.xk i with hs
      have hsp : 0 < s := div_pos (by have := hup h; linarith) hw
      refine descartes hsp ?_ ?_
      · have := end_val hp v h s
        rw [hs, div_mul_cancel₀ _ hw.ne', sub_sub_cancel, hcall, sub_self] at this
        exact this
      · by_contra hc
        push Not at hc
        obtain ⟨y, hy⟩ := hne
        apply hy
        have := end_val hp v h ((p.xk.getD i 0 - y) / width p.xk i)
        rw [div_mul_cancel₀ _ hw.ne', sub_sub_cancel,
          sum_eq_zero (fun k hk => by rw [hc k (mem_range.mp hk), zero_mul])] at this
        exact (sub_eq_zero.mp this.symm)
    · have := hle (by omega)
      rwa [if_pos h] at this
    · have := hle h
      split at this <;> linarith

/-- In a piecewise linear function the rule of signs at both ends of a piece is exact. -/
theorem linear_inner {p : PwPoly K K} (hp : WF p) (hn : p.n = 2) {v : K} {i : ℕ} (h0 : i ≠ 0) (hi : i < p.xk.length)
    (hm : MayVanish p v i) (hd : pieceDeg p i = 1) : 0 ≤ linXi p v i ∧ linXi p v i ≤ 1 := by
  have h1 := unitCoef_lead hp v (i := i) (by omega)
  rw [hd] at h1
  have hv := unit_val hp v hi.le 1
  have he0 := end_val hp v hi 0
  have he1 := end_val hp v hi 1
  have hu0 := unit_val hp v hi.le 0
  have e := end_eq hp.ne hi
  rw [if_neg h0] at e
  rw [show (1:K) * width p.xk i + origin p.xk i = p.xk.getD i 0 by linarith] at hv
  rw [show p.xk.getD i 0 - 0 * width p.xk i = p.xk.getD i 0 by ring] at he0
  rw [show p.xk.getD i 0 - 1 * width p.xk i = 0 * width p.xk i + origin p.xk i by linarith] at he1
  rw [hn] at hv he0 he1 hu0
  simp only [sum_range_succ, sum_range_zero, pow_zero, pow_one, mul_one, mul_zero, one_mul, zero_add, add_zero] at hv he0 he1 hu0
  obtain ⟨_, s1, s2⟩ := hm
  obtain ⟨k1, hk1, s1⟩ := s1 (by omega)
  obtain ⟨k2, hk2, s2⟩ := s2 hi
  rw [hn] at hk1 hk2
  obtain rfl : k1 = 0 := by omega
  obtain rfl : k2 = 0 := by omega
  simp only [zero_add, pow_one, pow_zero, one_mul] at s1 s2
  unfold linXi
  rw [sc_getD hp v hi.le, sc_getD hp v hi.le]
  have hE0 : endCoef p v i 0 = unitCoef p v i 0 + unitCoef p v i 1 := by linarith
  have hE1 : endCoef p v i 1 = unitCoef p v i 1 := by linarith
  rw [hE0, hE1] at s2
  rcases lt_or_gt_of_ne h1 with hneg | hpos
  · have ha := not_lt.mp (s1.mp hneg)
    have hb : unitCoef p v i 0 + unitCoef p v i 1 < 0 := by
      by_contra hc
      have := s2.mpr hc
      linarith
    constructor
    · exact div_nonneg_of_nonpos (by linarith) hneg.le
    · rw [div_le_one_of_neg hneg]; linarith
  · have ha : unitCoef p v i 0 < 0 := by
      by_contra hc
      have := s1.mpr hc
      linarith
    have hb := not_lt.mp (s2.mp (by linarith))
    constructor
    · exact div_nonneg (by linarith) hpos.le
    · rw [div_le_one hpos]; linarith

theorem roots_ok {E : (n : ℕ) → Matrix (Fin n) (Fin n) K → List K} (hE : EigSpec E) {p : PwPoly K K} (hp : WF p)
    (hn : 2 ≤ p.n) {v tol : K} (ht : 0 ≤ tol) (hneg : NotNegligible p v tol) (hnl : NonlinearFirst p v) :
    ∃ L, nlRoots E p v tol = .ok L ∧
      (crossKnots p v ++ linRoots p v tol ++ L).length ≤ p.xk.length + (p.xk.length + 1) * p.n ∧
      p.roots E v tol = if crossKnots p v ++ linRoots p v tol ++ L = [] then .error .valueError else
        .ok (dedup p.xk tol ((crossKnots p v ++ linRoots p v tol ++ L).insertionSort (· ≤ ·))) := by
  obtain ⟨L, h1, h2, _⟩ := nlRoots_spec hE hp hn ht hneg hnl
  refine ⟨L, h1, ?_, ?_⟩
  · have ha : (crossKnots p v).length ≤ p.xk.length := by
      unfold crossKnots
      refine (List.length_filterMap_le _ _).trans ?_
      simp
    have hb : (linRoots p v tol).length ≤ p.xk.length + 1 := by
      unfold linRoots
      refine (List.length_filterMap_le _ _).trans ?_
      rw [List.length_zipIdx]
      unfold cols
      refine (List.length_filter_le _ _).trans ((List.length_filter_le _ _).trans ?_)
      rw [List.length_range, hp.len]
    rw [List.length_append, List.length_append]
    have : (p.xk.length + 1) * p.n = (p.xk.length + 1) + (p.xk.length + 1) * (p.n - 1) := by
      obtain ⟨m, hm⟩ : ∃ m, p.n = m + 1 := ⟨p.n - 1, by omega⟩
      rw [hm]; simp; ring
    omega
  · unfold PwPoly.roots
    rw [h1]
    simp only [bind, Except.bind, pure, Except.pure, throw, throwThe, MonadExceptOf.throw]
    rw [if_neg (by omega)]

/-- All the conditions on the pieces used below. -/
theorem candidate_sol {E : (n : ℕ) → Matrix (Fin n) (Fin n) K → List K} (hE : EigSpec E) {p : PwPoly K K} (hp : WF p)
    (hn : 2 ≤ p.n) {v tol : K} (ht : 0 ≤ tol) (hneg : NotNegligible p v tol) (hnl : NonlinearFirst p v)
    (hlin : p.n ≤ 2 ∨ (¬ LinFirst p v ∧ ¬ LinLast p v) ∨
      ∀ i, 0 < i → i < p.xk.length → MayVanish p v i → pieceDeg p i ≠ 1)
    {L : List K} (hL : nlRoots E p v tol = .ok L) :
    ∀ x ∈ crossKnots p v ++ linRoots p v tol ++ L, Solution p v x := by
  intro x hx
  rw [List.mem_append, List.mem_append] at hx
  rcases hx with (hx | hx) | hx
  · exact Or.inr ((mem_crossKnots hp v x).mp hx)
  · obtain ⟨j, hm, hd, rfl, hmask⟩ := (mem_linRoots hp hn ht hneg x).mp hx
    refine sol_of_unit hp hm.1 ((linXi_iff hp v hm.1 hd _).mpr rfl) ?_ ?_ ?_
    · intro h0
      subst h0
      rcases hmask with h | h | h
      · exact h.2.1 rfl
      · exact absurd ⟨hm, hd⟩ h.1
      · exact absurd ⟨hm, hd⟩ h.1
    · intro h0
      rcases hmask with h | h | h
      · exact h.2.2 h0
      · exact h.2.2.1
      · exact h.2.2
    · intro h0 hj
      rcases hlin with h | h | h
      · exact (linear_inner hp (by omega) h0 hj hm hd).2
      · rcases hmask with h' | h' | h'
        · exact absurd h'.1 h.1
        · exact h'.2.2.2
        · exact absurd h'.2.1 h.2
      · exact absurd hd (h j (by omega) hj hm)
  · obtain ⟨L', h1, _, h3⟩ := nlRoots_spec hE hp hn ht hneg hnl
    rw [h1] at hL
    obtain rfl := Except.ok.inj hL
    obtain ⟨j, t, hm, hd, hr, rfl, ha, hb, hc⟩ := (h3 x).mp hx
    exact sol_of_unit hp hm.1 hr ha hb (fun h0 hj => hc h0 (by rintro ⟨h, _⟩; omega))

/-- **C21, part.**  Every `x` returned by `p.roots(v)` is a point with `p(x) = v` or a knot where `p`
jumps across `v`, and the list is strictly increasing, for functions such that among the pieces which
may vanish the nonlinear ones come first (`NonlinearFirst`), no leading coefficient is negligible, and
either the degree is at most 1, or the semi-infinite pieces are not linear, or no other piece is linear
(`hlin`).  Without these conditions it is false: `C21_spurious_refuted`, `C21_wrong_degree_refuted`,
`C21_index_error_refuted`; and the result is never an empty array: `C21_no_root_error`. -/
theorem C21_roots_sound_partial {E : (n : ℕ) → Matrix (Fin n) (Fin n) K → List K} (hE : EigSpec E)
    {p : PwPoly K K} (hp : WF p) (hn : 2 ≤ p.n) {v tol : K} (ht : 0 ≤ tol) (hneg : NotNegligible p v tol)
    (hnl : NonlinearFirst p v)
    (hlin : p.n ≤ 2 ∨ (¬ LinFirst p v ∧ ¬ LinLast p v) ∨
      ∀ i, 0 < i → i < p.xk.length → MayVanish p v i → pieceDeg p i ≠ 1)
    {L : List K} (h : p.roots E v tol = .ok L) :
    (∀ x ∈ L, Solution p v x) ∧ L.Pairwise (· < ·) := by
  obtain ⟨N, hN, _, e⟩ := roots_ok hE hp hn ht hneg hnl
  rw [e] at h
  split at h
  · exact absurd h (by simp)
  · obtain rfl := Except.ok.inj h
    constructor
    · intro x hx
      have := dedup_subset _ _ _ x hx
      rw [List.mem_insertionSort] at this
      exact candidate_sol hE hp hn ht hneg hnl hlin hN x this
    · have hs := dedup_sep hp.ne ht (w := 0) (fun i _ => (width_pos hp.ne hp.inc i).le)
        ((crossKnots p v ++ linRoots p v tol ++ N).insertionSort (· ≤ ·)) (List.pairwise_insertionSort _ _)
      refine hs.imp ?_
      intro a b hab
      rw [mul_zero] at hab
      linarith

/-- The property says that the result is an empty array when there is no root: it is not; the call
raises ValueError, for every such function of degree at least 1 (with the conditions of
`C21_roots_sound_partial`). -/
theorem C21_no_root_error {E : (n : ℕ) → Matrix (Fin n) (Fin n) K → List K} (hE : EigSpec E)
    {p : PwPoly K K} (hp : WF p) (hn : 2 ≤ p.n) {v tol : K} (ht : 0 ≤ tol) (hneg : NotNegligible p v tol)
    (hnl : NonlinearFirst p v)
    (hlin : p.n ≤ 2 ∨ (¬ LinFirst p v ∧ ¬ LinLast p v) ∨
      ∀ i, 0 < i → i < p.xk.length → MayVanish p v i → pieceDeg p i ≠ 1)
    (hno : ∀ x, ¬ Solution p v x) : p.roots E v tol = .error .valueError := by
  obtain ⟨N, hN, _, e⟩ := roots_ok hE hp hn ht hneg hnl
  rw [e, if_pos]
  rw [List.eq_nil_iff_forall_not_mem]
  intro x hx
  exact hno x (candidate_sol hE hp hn ht hneg hnl hlin hN x hx)

/-- **C22, part.**  Suppose `p(x) = v` with `x` in a piece which is not identically `v`.  Then `roots`
succeeds and returns a value which is `x` up to the removal of near duplicates (`x` itself when
`tol = 0`, see `C22_roots_exact`), provided that the conditions of C21 hold, and, when the last piece
is nonlinear, that `x` is at most one width beyond the last knot or every piece may vanish and is
nonlinear.  Without these conditions it is false: `C22_missed_refuted`, `C21_wrong_degree_refuted`. -/
theorem C22_roots_complete_partial {E : (n : ℕ) → Matrix (Fin n) (Fin n) K → List K} (hE : EigSpec E)
    {p : PwPoly K K} (hp : WF p) (hn : 2 ≤ p.n) {v tol : K} (ht : 0 ≤ tol) (hneg : NotNegligible p v tol)
    (hnl : NonlinearFirst p v) {W : K} (hW : ∀ i ≤ p.xk.length, width p.xk i ≤ W)
    {x : K} {i : ℕ} (hin : InPiece p.xk i x) (hx : p.call x = v) (hne : ∃ y, pieceVal p i y ≠ v)
    (hreach : x ≤ p.xk.getD (p.xk.length - 1) 0 + width p.xk p.xk.length ∨
      pieceDeg p p.xk.length ≤ 1 ∨ AllNonlinear p v) :
    ∃ L, p.roots E v tol = .ok L ∧ ∃ r ∈ L, r ≤ x ∧
      x - r ≤ (p.xk.length + (p.xk.length + 1) * p.n : ℕ) * (tol * W) := by
  obtain ⟨N, hN, hlen, e⟩ := roots_ok hE hp hn ht hneg hnl
  have hW0 : 0 ≤ W := (width_pos hp.ne hp.inc 0).le.trans (hW 0 (Nat.zero_le _))
  have hlen0 : 0 < p.xk.length := List.length_pos_iff.mpr hp.ne
  have hmem : x ∈ crossKnots p v ++ linRoots p v tol ++ N := by
    rw [List.mem_append, List.mem_append]
    rcases unit_of_sol hp hin hx hne with h | ⟨t, hr, hxt, hm, h0, h1, h2⟩
    · exact Or.inl (Or.inl ((mem_crossKnots hp v x).mpr h))
    · have hd0 : 1 ≤ pieceDeg p i := by
        by_contra hc
        have hz : pieceDeg p i = 0 := by omega
        have hr' := (unitRoot_iff hp v hm.1 t).mp hr
        rw [hz] at hr'
        simp at hr'
        obtain ⟨y, hy⟩ := hne
        apply hy
        have hw := width_pos hp.ne hp.inc i
        have := unit_val hp v hm.1 ((y - origin p.xk i) / width p.xk i)
        rw [div_mul_cancel₀ _ hw.ne', sub_add_cancel, sum_trunc hp v hm.1, hz] at this
        simp [hr'] at this
        exact (sub_eq_zero.mp this.symm)
      by_cases hd : pieceDeg p i = 1
      · left; right
        rw [linXi_iff hp v hm.1 hd] at hr
        subst hr
        refine (mem_linRoots hp hn ht hneg x).mpr ⟨i, hm, hd, hxt, ?_⟩
        by_cases hf : LinFirst p v
        · exact Or.inl ⟨hf, h0, h1⟩
        · have hi0 : i ≠ 0 := fun h => hf ⟨h ▸ hm, h ▸ hd⟩
          right
          by_cases hl : LinLast p v
          · exact Or.inr ⟨hf, hl, h1 hi0⟩
          · left
            refine ⟨hf, hl, h1 hi0, h2 ?_⟩
            rcases Nat.lt_or_ge i p.xk.length with h | h
            · exact h
            · have : i = p.xk.length := le_antisymm hm.1 h
              exact absurd ⟨this ▸ hm, this ▸ hd⟩ hl
      · right
        obtain ⟨L', hL', _, h3⟩ := nlRoots_spec hE hp hn ht hneg hnl
        rw [hL'] at hN
        obtain rfl := Except.ok.inj hN
        refine (h3 x).mpr ⟨i, t, hm, by omega, hr, hxt, h0, h1, fun hi0 hna => ?_⟩
        rcases Nat.lt_or_ge i p.xk.length with h | h
        · exact h2 h
        · have hil : i = p.xk.length := le_antisymm hm.1 h
          rcases hreach with h' | h' | h'
          · have hw := width_pos hp.ne hp.inc i
            have e : origin p.xk i = p.xk.getD (p.xk.length - 1) 0 := by rw [hil]; rfl
            rw [hxt, e, ← hil] at h'
            have : t * width p.xk i ≤ 1 * width p.xk i := by linarith
            exact le_of_mul_le_mul_right this hw
          · rw [← hil] at h'; omega
          · exact absurd ⟨hil, h'⟩ hna
  refine ⟨_, by rw [e, if_neg (List.ne_nil_of_mem hmem)], ?_⟩
  obtain ⟨r, h1, h2, h3⟩ := dedup_near hp.ne ht hW hW0
    ((crossKnots p v ++ linRoots p v tol ++ N).insertionSort (· ≤ ·)) (List.pairwise_insertionSort _ _) x (by rw [List.mem_insertionSort]; exact hmem)
  refine ⟨r, h1, h2, h3.trans (mul_le_mul_of_nonneg_right ?_ (mul_nonneg ht hW0))⟩
  rw [List.length_insertionSort]
  exact_mod_cast hlen

theorem notNegligible_zero {p : PwPoly K K} (hp : WF p) (v : K) : NotNegligible p v 0 := by
  intro i _ hd k _
  rw [zero_mul]
  exact abs_pos.mpr (unitCoef_lead hp v hd)

/-- **C22, part.**  With `tol = 0` the root itself is returned. -/
theorem C22_roots_exact_partial {E : (n : ℕ) → Matrix (Fin n) (Fin n) K → List K} (hE : EigSpec E)
    {p : PwPoly K K} (hp : WF p) (hn : 2 ≤ p.n) {v : K} (hnl : NonlinearFirst p v)
    {x : K} {i : ℕ} (hin : InPiece p.xk i x) (hx : p.call x = v) (hne : ∃ y, pieceVal p i y ≠ v)
    (hreach : x ≤ p.xk.getD (p.xk.length - 1) 0 + width p.xk p.xk.length ∨
      pieceDeg p p.xk.length ≤ 1 ∨ AllNonlinear p v) :
    ∃ L, p.roots E v 0 = .ok L ∧ x ∈ L := by
  obtain ⟨W, hW⟩ : ∃ W, ∀ i ≤ p.xk.length, width p.xk i ≤ W := by
    have : ∀ n, ∃ W, ∀ i ≤ n, width p.xk i ≤ W := by
      intro n
      induction n with
      | zero => exact ⟨width p.xk 0, fun i hi => by rw [Nat.le_zero.mp hi]⟩
      | succ n ih =>
        obtain ⟨W, hW⟩ := ih
        refine ⟨max W (width p.xk (n+1)), fun i hi => ?_⟩
        rcases Nat.lt_or_ge i (n+1) with h | h
        · exact (hW i (by omega)).trans (le_max_left _ _)
        · have : i = n + 1 := by omega
          subst this; exact le_max_right _ _
    exact this _
  obtain ⟨L, hL, r, hr, h1, h2⟩ := C22_roots_complete_partial hE hp hn le_rfl (notNegligible_zero hp v) hnl hW hin hx hne hreach
  rw [zero_mul, mul_zero] at h2
  have : r = x := by linarith
  exact ⟨L, hL, this ▸ hr⟩

/-- **C21 and C22 for piecewise linear functions**, no further condition on the pieces: with `tol = 0`,
and no piece identically `v`, the values returned are exactly the solutions and the knots where the
function jumps across `v`, in increasing order; when there are none the call raises ValueError. -/
theorem C22_piecewise_linear {E : (n : ℕ) → Matrix (Fin n) (Fin n) K → List K} (hE : EigSpec E)
    {p : PwPoly K K} (hp : WF p) (hn : p.n = 2) {v : K} (hne : ∀ i ≤ p.xk.length, ∃ y, pieceVal p i y ≠ v) :
    ((∃ x, Solution p v x) →
      ∃ L, p.roots E v 0 = .ok L ∧ L.Pairwise (· < ·) ∧ ∀ x, x ∈ L ↔ Solution p v x) ∧
    ((∀ x, ¬ Solution p v x) → p.roots E v 0 = .error .valueError) := by
  have hdeg : ∀ i, pieceDeg p i ≤ 1 := fun i => by have := pieceDeg_lt hp i; omega
  have hnl : NonlinearFirst p v := fun i j _ _ _ h => by have := hdeg j; omega
  have hneg := notNegligible_zero hp v
  refine ⟨fun hex => ?_, fun hno => ?_⟩
  · obtain ⟨N, hN, _, e⟩ := roots_ok hE hp (by omega) le_rfl hneg hnl
    have hall : ∀ x, Solution p v x → ∃ L, p.roots E v 0 = .ok L ∧ x ∈ L := by
      intro x hx
      by_cases hj : ∃ j, JumpsAcross p v j ∧ x = p.xk.getD j 0
      · have hmem : x ∈ crossKnots p v ++ linRoots p v 0 ++ N := by
          rw [List.mem_append, List.mem_append]
          exact Or.inl (Or.inl ((mem_crossKnots hp v x).mpr hj))
        refine ⟨_, by rw [e, if_neg (List.ne_nil_of_mem hmem)], ?_⟩
        obtain ⟨W, hW⟩ : ∃ W, ∀ i ≤ p.xk.length, width p.xk i ≤ W := by
          refine ⟨((List.range (p.xk.length + 1)).map (width p.xk)).foldl max 0, fun i hi => ?_⟩
          exact ((foldl_max_le _ _ _).mp le_rfl).2 _ (List.mem_map.mpr ⟨i, by rw [List.mem_range]; omega, rfl⟩)
        have hW0 : 0 ≤ W := (width_pos hp.ne hp.inc 0).le.trans (hW 0 (Nat.zero_le _))
        obtain ⟨r, h1, h2, h3⟩ := dedup_near hp.ne le_rfl hW hW0
          ((crossKnots p v ++ linRoots p v 0 ++ N).insertionSort (· ≤ ·)) (List.pairwise_insertionSort _ _) x (by rw [List.mem_insertionSort]; exact hmem)
        rw [zero_mul, mul_zero] at h3
        have : r = x := by linarith
        exact this ▸ h1
      · rcases hx with hx | hx
        · have hin := inPiece_searchsorted hp.inc x
          exact C22_roots_exact_partial hE hp (by omega) hnl hin hx (hne _ hin.1) (Or.inr (Or.inl (hdeg _)))
        · exact absurd hx hj
    obtain ⟨x0, hx0⟩ := hex
    obtain ⟨L, hL, _⟩ := hall x0 hx0
    obtain ⟨hs, hp'⟩ := C21_roots_sound_partial hE hp (by omega) le_rfl hneg hnl (Or.inl (by omega)) hL
    refine ⟨L, hL, hp', fun x => ⟨hs x, fun hx => ?_⟩⟩
    obtain ⟨L', hL', hx'⟩ := hall x hx
    rw [hL] at hL'
    exact Except.ok.inj hL' ▸ hx'
  · exact C21_no_root_error hE hp (by omega) le_rfl hneg hnl (Or.inl (by omega)) hno

/-- **C21 and C22 for functions all of whose pieces are nonlinear** (e.g. with a leading coefficient which is not zero in any piece), `tol = 0`: the
values returned are solutions, in increasing order; every solution up to one width beyond the last knot is returned (all the solutions, when every
piece may vanish); when there is no solution the call raises ValueError. -/
theorem C22_all_nonlinear {E : (n : ℕ) → Matrix (Fin n) (Fin n) K → List K} (hE : EigSpec E)
    {p : PwPoly K K} (hp : WF p) {v : K} (hdeg : ∀ i ≤ p.xk.length, 2 ≤ pieceDeg p i) :
    (∀ x, Solution p v x → (x ≤ p.xk.getD (p.xk.length - 1) 0 + width p.xk p.xk.length ∨ ∀ i ≤ p.xk.length, MayVanish p v i) →
      ∃ L, p.roots E v 0 = .ok L ∧ x ∈ L) ∧
    (∀ L, p.roots E v 0 = .ok L → L.Pairwise (· < ·) ∧ ∀ x ∈ L, Solution p v x) ∧
    ((∀ x, ¬ Solution p v x) → p.roots E v 0 = .error .valueError) := by
  have hn : 2 ≤ p.n := by have := pieceDeg_lt hp 0; have := hdeg 0 (Nat.zero_le _); omega
  have hnl : NonlinearFirst p v := fun i j hi _ _ _ => hdeg i hi.1
  have hneg := notNegligible_zero hp v
  have hlin : p.n ≤ 2 ∨ (¬ LinFirst p v ∧ ¬ LinLast p v) ∨ ∀ i, 0 < i → i < p.xk.length → MayVanish p v i → pieceDeg p i ≠ 1 := by
    refine .inr (.inr fun i _ hi _ h => ?_)
    have := hdeg i hi.le
    omega
  have hne : ∀ i ≤ p.xk.length, ∃ y, pieceVal p i y ≠ v := by
    intro i hi
    by_contra hc
    push Not at hc
    have hz : ∀ t, ∑ k ∈ Finset.range (pieceDeg p i + 1), unitCoef p v i k * t ^ k = 0 := by
      intro t
      rw [← sum_trunc hp v hi t, unit_val hp v hi t, hc, sub_self]
    have hlead := unitCoef_lead hp v (i := i) (by have := hdeg i hi; omega)
    let P : Polynomial K := ∑ k ∈ Finset.range (pieceDeg p i + 1), Polynomial.C (unitCoef p v i k) * Polynomial.X ^ k
    haveI : Infinite K := Infinite.of_injective (Nat.cast : ℕ → K) Nat.cast_injective
    have hP : P = 0 := by
      refine Polynomial.funext fun t => ?_
      simp only [P, Polynomial.eval_finset_sum, Polynomial.eval_mul, Polynomial.eval_C, Polynomial.eval_pow, Polynomial.eval_X, hz, Polynomial.eval_zero]
    have : P.coeff (pieceDeg p i) = unitCoef p v i (pieceDeg p i) := by
      simp [P, Polynomial.coeff_C_mul, Polynomial.coeff_X_pow]
    rw [hP] at this
    exact hlead (by rw [← this]; simp)
  refine ⟨fun x hx hr => ?_, fun L hL => (C21_roots_sound_partial hE hp hn le_rfl hneg hnl hlin hL).symm,
    C21_no_root_error hE hp hn le_rfl hneg hnl hlin⟩
  by_cases hj : ∃ j, JumpsAcross p v j ∧ x = p.xk.getD j 0
  · obtain ⟨N, hN, _, e⟩ := roots_ok hE hp hn le_rfl hneg hnl
    have hmem : x ∈ crossKnots p v ++ linRoots p v 0 ++ N := by
      rw [List.mem_append, List.mem_append]
      exact Or.inl (Or.inl ((mem_crossKnots hp v x).mpr hj))
    refine ⟨_, by rw [e, if_neg (List.ne_nil_of_mem hmem)], ?_⟩
    obtain ⟨W, hW⟩ : ∃ W, ∀ i ≤ p.xk.length, width p.xk i ≤ W := by
      refine ⟨((List.range (p.xk.length + 1)).map (width p.xk)).foldl max 0, fun i hi => ?_⟩
      exact ((foldl_max_le _ _ _).mp le_rfl).2 _ (List.mem_map.mpr ⟨i, by rw [List.mem_range]; omega, rfl⟩)
    have hW0 : 0 ≤ W := (width_pos hp.ne hp.inc 0).le.trans (hW 0 (Nat.zero_le _))
    obtain ⟨r, h1, h2, h3⟩ := dedup_near hp.ne le_rfl hW hW0
      ((crossKnots p v ++ linRoots p v 0 ++ N).insertionSort (· ≤ ·)) (List.pairwise_insertionSort _ _) x (by rw [List.mem_insertionSort]; exact hmem)
    rw [zero_mul, mul_zero] at h3
    have : r = x := by linarith
    exact this ▸ h1
  · rcases hx with hx | hx
    · have hin := inPiece_searchsorted hp.inc x
      exact C22_roots_exact_partial hE hp hn hnl hin hx (hne _ hin.1) (hr.imp id fun h => .inr fun i hi => ⟨h i hi, hdeg i hi⟩)
    · exact absurd hx hj

/-- For a piecewise linear function `NotNegligible` is a condition on the semi-infinite pieces only:
it says that their roots are less than `1/tol` widths away from the knots. -/
theorem notNegligible_linear {p : PwPoly K K} (hp : WF p) (hn : p.n = 2) {v tol : K} (ht : tol < 1)
    (hends : ∀ i, i = 0 ∨ i = p.xk.length → MayVanish p v i → pieceDeg p i = 1 →
      tol * |unitCoef p v i 0| < |unitCoef p v i 1|) : NotNegligible p v tol := by
  intro i hm hd k hk
  have hd1 : pieceDeg p i = 1 := by have := pieceDeg_lt hp i; omega
  rw [hd1]
  have h1 := unitCoef_lead hp v (i := i) (by omega)
  rw [hd1] at h1
  have hpos := abs_pos.mpr h1
  have hk' : k = 0 ∨ k = 1 := by omega
  rcases hk' with rfl | rfl
  · by_cases he : i = 0 ∨ i = p.xk.length
    · exact hends i he hm hd1
    · have hi : i < p.xk.length := by have := hm.1; omega
      obtain ⟨ha, hb⟩ := linear_inner hp hn (by omega) hi hm hd1
      unfold linXi at ha hb
      rw [sc_getD hp v hi.le, sc_getD hp v hi.le] at ha hb
      have : |unitCoef p v i 0| ≤ |unitCoef p v i 1| := by
        have h2 : |-unitCoef p v i 0 / unitCoef p v i 1| ≤ 1 := by rw [abs_of_nonneg ha]; exact hb
        rw [abs_div, abs_neg, div_le_one hpos] at h2
        exact h2
      rcases eq_or_lt_of_le (abs_nonneg (unitCoef p v i 0)) with h | h
      · rw [← h, mul_zero]; exact hpos
      · calc tol * |unitCoef p v i 0| < 1 * |unitCoef p v i 0| := mul_lt_mul_of_pos_right ht h
          _ ≤ |unitCoef p v i 1| := by rw [one_mul]; exact this
  · calc tol * |unitCoef p v i 1| < 1 * |unitCoef p v i 1| := mul_lt_mul_of_pos_right ht hpos
      _ = _ := one_mul _

/-- **C21 for piecewise linear functions**, with a tolerance below 1: everything returned is a solution
or a knot where the function jumps across `v` (when the roots of the extrapolations are less than
`1/tol` widths away). -/
theorem C21_piecewise_linear {E : (n : ℕ) → Matrix (Fin n) (Fin n) K → List K} (hE : EigSpec E)
    {p : PwPoly K K} (hp : WF p) (hn : p.n = 2) {v tol : K} (ht : 0 ≤ tol) (ht1 : tol < 1)
    (hends : ∀ i, i = 0 ∨ i = p.xk.length → MayVanish p v i → pieceDeg p i = 1 →
      tol * |unitCoef p v i 0| < |unitCoef p v i 1|) {L : List K} (h : p.roots E v tol = .ok L) :
    (∀ x ∈ L, Solution p v x) ∧ L.Pairwise (· < ·) :=
  C21_roots_sound_partial hE hp (by omega) ht (notNegligible_linear hp hn ht1 hends)
    (fun i j _ _ _ h => by have := pieceDeg_lt hp j; omega) (Or.inl (by omega)) h

/-- **C21 and C22 for piecewise constant functions**: the call returns exactly the knots where the
function jumps across `v`, an empty array when there is none. -/
theorem C21_piecewise_constant (E : (n : ℕ) → Matrix (Fin n) (Fin n) K → List K) {p : PwPoly K K} (hp : WF p)
    (hn : p.n = 1) (v tol : K) :
    ∃ L, p.roots E v tol = .ok L ∧ ∀ x, x ∈ L ↔ ∃ j, JumpsAcross p v j ∧ x = p.xk.getD j 0 := by
  refine ⟨crossKnots p v, ?_, mem_crossKnots hp v⟩
  unfold PwPoly.roots
  simp [hn, pure, Except.pure]

end Npplus
