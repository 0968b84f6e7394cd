import Verif.Lemmas.Poly
import Verif.Spec.PwPoly
import Mathlib.Data.List.GetD
import Mathlib.Data.List.Basic
import Mathlib.Tactic.Abel
import Mathlib.Tactic.Ring
import Mathlib.Tactic.FieldSimp
import Mathlib.Tactic.Linarith

set_option linter.unusedSectionVars false

/-! Helper lemmas about piecewise polynomials. -/

namespace Npplus
open Spec

section search
variable {K : Type} [LinearOrder K]

theorem searchsorted_le (xk : List K) (x : K) : searchsorted xk x ≤ xk.length :=
  List.countP_le_length

theorem searchsorted_cons (a : K) (xk : List K) (x : K) :
    searchsorted (a :: xk) x = searchsorted xk x + if a < x then 1 else 0 := by
  simp [searchsorted, List.countP_cons]

theorem searchsorted_eq_zero {xk : List K} {x : K} (h : ∀ a ∈ xk, x ≤ a) :
    searchsorted xk x = 0 := by
  simp only [searchsorted, List.countP_eq_zero, decide_eq_true_eq, not_lt]; exact h

theorem searchsorted_eq_length {xk : List K} {x : K} (h : ∀ a ∈ xk, a < x) :
    searchsorted xk x = xk.length := by
  simp only [searchsorted, List.countP_eq_length, decide_eq_true_eq]; exact h

theorem lt_of_lt_searchsorted {xk : List K} (hs : xk.Pairwise (· < ·)) {x : K} {j : ℕ}
    (hj : j < xk.length) (h : j < searchsorted xk x) : xk[j] < x := by
  induction xk generalizing j with
  | nil => simp at hj
  | cons a xk ih =>
    rw [List.pairwise_cons] at hs
    rw [searchsorted_cons] at h
    by_cases ha : a < x
    · cases j with
      | zero => simpa using ha
      | succ j => simp only [ha, if_true] at h; simpa using ih hs.2 (by simpa using hj) (by omega)
    · have : searchsorted xk x = 0 := searchsorted_eq_zero fun b hb =>
        le_of_lt (lt_of_le_of_lt (not_lt.mp ha) (hs.1 b hb))
      simp [ha, this] at h

theorem le_of_searchsorted_le {xk : List K} (hs : xk.Pairwise (· < ·)) {x : K} {j : ℕ}
    (hj : j < xk.length) (h : searchsorted xk x ≤ j) : x ≤ xk[j] := by
  induction xk generalizing j with
  | nil => simp at hj
  | cons a xk ih =>
    rw [List.pairwise_cons] at hs
    rw [searchsorted_cons] at h
    by_cases ha : a < x
    · simp only [ha, if_true] at h
      cases j with
      | zero => omega
      | succ j => simpa using ih hs.2 (by simpa using hj) (by omega)
    · cases j with
      | zero => simpa using ha
      | succ j =>
        have := hs.1 (xk[j]'(by simpa using hj)) (List.getElem_mem _)
        simpa using le_of_lt (lt_of_le_of_lt (not_lt.mp ha) this)

end search

section inpiece
variable {K : Type} [Field K] [LinearOrder K]

theorem inPiece_searchsorted {xk : List K} (hs : xk.Pairwise (· < ·)) (x : K) :
    InPiece xk (searchsorted xk x) x :=
  ⟨searchsorted_le xk x, fun _ h hj => lt_of_lt_searchsorted hs h hj,
    fun _ h hj => le_of_searchsorted_le hs h hj⟩

theorem Spec.InPiece.eq_searchsorted {xk : List K} {i : ℕ} {x : K} (h : InPiece xk i x) :
    searchsorted xk x = i := by
  obtain ⟨hi, h1, h2⟩ := h
  have e : xk = xk.take i ++ xk.drop i := (List.take_append_drop i xk).symm
  rw [e]
  unfold searchsorted
  rw [List.countP_append]
  have a : (xk.take i).countP (fun k => decide (k < x)) = i := by
    rw [List.countP_eq_length.mpr]
    · simp [hi]
    · intro a ha
      obtain ⟨j, hj, rfl⟩ := List.getElem_of_mem ha
      simp only [List.length_take] at hj
      rw [List.getElem_take]
      simpa using h1 j (by omega) (by omega)
  have b : (xk.drop i).countP (fun k => decide (k < x)) = 0 := by
    rw [List.countP_eq_zero]
    intro a ha
    obtain ⟨j, hj, rfl⟩ := List.getElem_of_mem ha
    simp only [List.length_drop] at hj
    rw [List.getElem_drop]
    simpa using h2 (i + j) (by omega) (by omega)
  rw [a, b]; omega

theorem existsUnique_inPiece {xk : List K} (hs : xk.Pairwise (· < ·)) (x : K) :
    ∃! i, InPiece xk i x :=
  ⟨_, inPiece_searchsorted hs x, fun _ h => h.eq_searchsorted.symm⟩

theorem mkXk0_getD {xk : List K} (h : xk ≠ []) (i : ℕ) :
    (PwPoly.mkXk0 xk).getD i 0 = origin xk i := by
  unfold PwPoly.mkXk0 origin
  cases xk with
  | nil => simp at h
  | cons a l => cases i <;> simp

theorem mkXk0_length {xk : List K} (h : xk ≠ []) : (PwPoly.mkXk0 xk).length = xk.length + 1 := by
  cases xk with
  | nil => simp at h
  | cons a l => simp [PwPoly.mkXk0]

end inpiece

namespace PwPoly
variable {K : Type} [Field K] [LinearOrder K] {V : Type} [AddCommGroup V] [Module K V]

theorem call_eq {p : PwPoly K V} (hp : WF p) (x : K) :
    p.call x = pieceVal p (searchsorted p.xk x) x := by
  unfold call pieceVal piece xk0
  simp only
  rw [mkXk0_getD hp.ne, polyfun_eq]

theorem _root_.Npplus.Spec.WF.piece_length {p : PwPoly K V} (hp : WF p) {i : ℕ} (hi : i ≤ p.xk.length) :
    (piece p i).length = p.n := by
  have : i < p.c.length := by rw [hp.len]; omega
  unfold piece
  rw [List.getD_eq_getElem _ _ this]
  exact hp.row _ (List.getElem_mem _)

/-! ### derivative -/

theorem length_derivPiece (c : List V) : (derivPiece K c).length = c.length - 1 := by
  simp [derivPiece]

theorem derivPiece_getD (c : List V) (i : ℕ) :
    (derivPiece K c).getD i 0 = ((i + 1 : ℕ) : K) • c.getD (i + 1) 0 := by
  unfold derivPiece
  simp only [List.getD_eq_getElem?_getD, List.getElem?_mapIdx, List.getElem?_drop]
  rw [Nat.add_comm 1 i]
  cases h : c[i + 1]? <;> simp

theorem polyDeriv_derivPiece (c : List V) (x : K) (k : ℕ) :
    polyDeriv (derivPiece K c) x k = polyDeriv c x (k + 1) := by
  unfold polyDeriv
  rw [length_derivPiece]
  cases hc : c.length with
  | zero => simp
  | succ n =>
    rw [Finset.sum_range_succ']
    simp only [Nat.zero_descFactorial_succ, Nat.cast_zero, zero_mul, zero_smul, add_zero,
      Nat.add_sub_cancel]
    refine Finset.sum_congr rfl fun i _ => ?_
    rw [derivPiece_getD, smul_smul, Nat.succ_descFactorial_succ]
    push_cast
    congr 1; ring

theorem polyDeriv_map_zero (c : List V) (x : K) (k : ℕ) :
    polyDeriv (c.map (fun _ => (0 : V))) x k = 0 := by
  unfold polyDeriv
  refine Finset.sum_eq_zero fun i _ => ?_
  simp [List.getD_eq_getElem?_getD]

theorem polyDeriv_eq_zero (c : List V) (x : K) (k : ℕ) (h : c.length ≤ k) :
    polyDeriv c x k = 0 := by
  rw [polyDeriv_eq, taylorCoeff_eq_zero _ _ _ h, smul_zero]

theorem polyDeriv_zero (c : List V) (x : K) : polyDeriv c x 0 = polyVal c x := by
  rw [polyDeriv_eq, taylorCoeff_zero]; simp

theorem getD_map_ne {α β : Type} (f : α → β) (l : List α) (i : ℕ) (h : i < l.length) (d : α) (e : β) :
    (l.map f).getD i e = f (l.getD i d) := by
  simp [List.getD_eq_getElem?_getD, h]

theorem derivLoop_spec (m : ℕ) : ∀ (n : ℕ) (c : List (List V)), 1 ≤ n → (∀ l ∈ c, l.length = n) →
    (derivLoop K m n c).2.length = c.length ∧ 1 ≤ (derivLoop K m n c).1 ∧
    (derivLoop K m n c).1 = max (n - m) 1 ∧
    (∀ l ∈ (derivLoop K m n c).2, l.length = (derivLoop K m n c).1) ∧
    ∀ i (x : K) k, polyDeriv ((derivLoop K m n c).2.getD i []) x k =
      polyDeriv (c.getD i []) x (k + m) := by
  induction m with
  | zero => intro n c hn hc; simp [derivLoop, hn]; exact hc
  | succ m ih =>
    intro n c hn hc
    unfold derivLoop
    split
    · rename_i h2
      have hn1 : n = 1 := by omega
      subst hn1
      refine ⟨by simp, le_rfl, by simp, ?_, ?_⟩
      · intro l hl
        simp only [List.mem_map] at hl
        obtain ⟨a, ha, rfl⟩ := hl
        simpa using hc a ha
      · intro i x k
        by_cases hi : i < c.length
        · rw [getD_map_ne _ _ _ hi [], polyDeriv_map_zero, polyDeriv_eq_zero]
          rw [List.getD_eq_getElem _ _ hi, hc _ (List.getElem_mem _)]; omega
        · simp [Nat.le_of_not_lt hi, polyDeriv]
    · rename_i h2
      have hc' : ∀ l ∈ c.map (derivPiece K), l.length = n - 1 := by
        intro l hl
        simp only [List.mem_map] at hl
        obtain ⟨a, ha, rfl⟩ := hl
        rw [length_derivPiece, hc a ha]
      obtain ⟨h1, h3, h4, h5, h6⟩ := ih (n - 1) (c.map (derivPiece K)) (by omega) hc'
      refine ⟨by simpa using h1, h3, by rw [h4]; congr 1; omega, h5, ?_⟩
      intro i x k
      rw [h6]
      by_cases hi : i < c.length
      · rw [getD_map_ne _ _ _ hi [], polyDeriv_derivPiece]; congr 1
      · simp [Nat.le_of_not_lt hi, polyDeriv]

theorem deriv_WF {p : PwPoly K V} (hp : WF p) (m : ℕ) : WF (p.deriv m) := by
  obtain ⟨h1, h3, _, h5, _⟩ := derivLoop_spec (K := K) m p.n p.c hp.pos hp.row
  exact ⟨hp.ne, hp.inc, by simpa [deriv] using h1.trans hp.len, h3, h5⟩

theorem deriv_pieceDeriv {p : PwPoly K V} (hp : WF p) (m i : ℕ) (x : K) (k : ℕ) :
    pieceDeriv (p.deriv m) i x k = pieceDeriv p i x (k + m) := by
  obtain ⟨_, _, _, _, h6⟩ := derivLoop_spec (K := K) m p.n p.c hp.pos hp.row
  exact h6 i _ k

/-! ### integral -/

section integ
variable [IsStrictOrderedRing K]

theorem derivPiece_integPiece (c : List V) : derivPiece K (integPiece K c) = c := by
  apply List.ext_getElem
  · simp [derivPiece, integPiece]
  · intro i h1 h2
    simp only [derivPiece, integPiece, List.drop_succ_cons, List.drop_zero, List.getElem_mapIdx]
    rw [smul_smul]
    have : ((i + 1 : ℕ) : K) ≠ 0 := by positivity
    rw [mul_one_div_cancel this, one_smul]

theorem derivPiece_addHead (v : V) (c : List V) : derivPiece K (addHead v c) = derivPiece K c := by
  cases c <;> simp [derivPiece, addHead]

theorem polyVal_addHead (v : V) (c : List V) (x : K) (h : c ≠ []) :
    polyVal (addHead v c) x = polyVal c x + v := by
  cases c with
  | nil => simp at h
  | cons a c => simp only [addHead, polyVal_cons]; abel

theorem length_addHead (v : V) (c : List V) : (addHead v c).length = c.length := by
  cases c <;> simp [addHead]

theorem addHead_zero (c : List V) : addHead (0:V) c = c := by
  cases c <;> simp [addHead]

theorem addHead_addHead (v w : V) (c : List V) : addHead w (addHead v c) = addHead (v + w) c := by
  cases c <;> simp [addHead, add_assoc]

theorem length_cumsumFrom (s : V) (l : List V) : (cumsumFrom s l).length = l.length := by
  induction l generalizing s with
  | nil => rfl
  | cons a l ih => simp [cumsumFrom, ih]

theorem cumsumFrom_getElem (s : V) (l : List V) (i : ℕ) (h : i < (cumsumFrom s l).length) :
    (cumsumFrom s l)[i] = s + ∑ j ∈ Finset.range (i + 1), l.getD j 0 := by
  induction l generalizing s i with
  | nil => simp [cumsumFrom] at h
  | cons a l ih =>
    cases i with
    | zero => simp [cumsumFrom]
    | succ i =>
      simp only [cumsumFrom, List.getElem_cons_succ]
      rw [ih, Finset.sum_range_succ' _ (i + 1)]
      simp only [List.getD_cons_succ, List.getD_cons_zero]
      abel

theorem length_diffs (xk : List K) : (diffs xk).length = xk.length - 1 := by
  simp [diffs]

theorem diffs_getElem (xk : List K) (j : ℕ) (h : j < (diffs xk).length) :
    (diffs xk)[j] = xk.getD (j + 1) 0 - xk.getD j 0 := by
  have := length_diffs xk
  simp [diffs]
  rw [List.getElem?_eq_getElem (by omega), List.getElem?_eq_getElem (by omega)]
  simp

/-- The step added to piece `i` to make the integral continuous. -/
def stepSum (xk : List K) (c : List (List V)) (i : ℕ) : V :=
  ∑ j ∈ Finset.range (i - 1), polyVal (c.getD (j + 1) []) (xk.getD (j + 1) 0 - xk.getD j 0)

theorem stepUp_length (xk : List K) (c : List (List V)) (hc : c.length = xk.length + 1)
    (hx : 1 < xk.length) : (stepUp xk c).length = c.length := by
  simp [stepUp, length_cumsumFrom, length_diffs]; omega

theorem stepUp_getD (xk : List K) (c : List (List V)) (hc : c.length = xk.length + 1)
    (hx : 1 < xk.length) (i : ℕ) (hi : i < c.length) :
    (stepUp xk c).getD i [] = addHead (stepSum xk c i) (c.getD i []) := by
  by_cases h2 : i < 2
  · have : stepSum xk c i = (0:V) := by
      unfold stepSum; rw [show i - 1 = 0 by omega]; simp
    rw [this, addHead_zero]
    unfold stepUp
    simp only
    rw [List.getD_append _ _ _ _ (by simp; omega)]
    simp [List.getD_eq_getElem?_getD, h2]
  · obtain ⟨k, rfl⟩ : ∃ k, i = k + 2 := ⟨i - 2, by omega⟩
    unfold stepUp
    simp only
    rw [List.getD_append_right _ _ _ _ (by simp)]
    have hlen : (c.take 2).length = 2 := by simp; omega
    rw [hlen, show k + 2 - 2 = k by omega]
    rw [List.getD_eq_getElem _ _ (by simp [length_cumsumFrom, length_diffs]; omega)]
    rw [List.getElem_zipWith, cumsumFrom_getElem, zero_add, List.getElem_drop,
      List.getD_eq_getElem _ _ hi]
    congr 1
    · unfold stepSum
      rw [show k + 2 - 1 = k + 1 by omega]
      refine Finset.sum_congr rfl fun j hj => ?_
      simp only [Finset.mem_range] at hj
      rw [List.getD_eq_getElem _ _ (by simp [length_diffs]; omega), List.getElem_zipWith,
        diffs_getElem, polyfun_eq, List.getElem_dropLast, List.getElem_drop,
        List.getD_eq_getElem c _ (by omega)]
      congr 2; omega
    · congr 1; omega

end integ

end PwPoly
end Npplus
