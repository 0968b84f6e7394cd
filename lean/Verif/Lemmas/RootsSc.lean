import Verif.Lemmas.Roots
import Verif.Lemmas.PwInteg

/-! Helper lemmas about `roots`: the scaled coefficients, the mask and the degrees. -/

set_option linter.unusedSectionVars false
set_option linter.unusedVariables false

namespace Npplus

open Spec Finset Roots

variable {K : Type} [Field K] [LinearOrder K] [IsStrictOrderedRing K]

theorem dx0_length {xk : List K} (h : xk ≠ []) : (dx0 xk).length = xk.length := by
  simp [dx0, mkXk0_length h]

theorem dx0_getD {xk : List K} (h : xk ≠ []) {i : ℕ} (hi : i < xk.length) :
    (dx0 xk).getD i 0 = xk.getD i 0 - origin xk i := by
  have h1 : i < (dx0 xk).length := by rw [dx0_length h]; exact hi
  have e := mkXk0_getD h i
  rw [List.getD_eq_getElem _ _ (by rw [mkXk0_length h]; omega)] at e
  rw [List.getD_eq_getElem _ _ h1, List.getD_eq_getElem _ _ hi, ← e]
  simp [dx0]

theorem dxs_length {xk : List K} (h : xk ≠ []) : (dxs xk).length = xk.length + 1 := by
  have hl : 0 < xk.length := List.length_pos_iff.mpr h
  unfold dxs
  simp only [dx0_length h]
  split
  · simp [dx0_length h]
  · simp; omega

theorem dxs_getD {xk : List K} (h : xk ≠ []) {i : ℕ} (hi : i ≤ xk.length) :
    (dxs xk).getD i 0 = width xk i := by
  have hl : 0 < xk.length := List.length_pos_iff.mpr h
  unfold dxs width
  simp only [dx0_length h]
  by_cases h1 : 1 < xk.length
  · rw [if_pos h1, if_neg (by omega)]
    have d1 : (dx0 xk).getD 1 0 = xk.getD 1 0 - xk.getD 0 0 := by rw [dx0_getD h h1]; rfl
    have dk : ∀ k, 1 ≤ k → k < xk.length → (dx0 xk).getD k 0 = xk.getD k 0 - xk.getD (k - 1) 0 := by
      intro k _ hk; rw [dx0_getD h hk]; rfl
    have inner : ∀ k, k < xk.length → ((dx0 xk).set 0 ((dx0 xk).getD 1 0)).getD k 0 =
        xk.getD (max k 1) 0 - xk.getD (max k 1 - 1) 0 := by
      intro k hk
      rcases Nat.eq_zero_or_pos k with h0 | h0
      · subst h0
        rw [List.getD_eq_getElem _ _ (by simp [dx0_length h]; omega), List.getElem_set_self, d1]
        rfl
      · rw [List.getD_eq_getElem _ _ (by simp [dx0_length h]; omega), List.getElem_set_ne (by omega),
          max_eq_left (by omega : 1 ≤ k), ← dk k h0 hk,
          ← List.getD_eq_getElem (dx0 xk) 0 (by rw [dx0_length h]; exact hk)]
    by_cases h2 : i < xk.length
    · rw [List.getD_append _ _ _ _ (by simp [dx0_length h]; exact h2), inner i h2,
        min_eq_left (by omega : max i 1 ≤ xk.length - 1)]
    · have : i = xk.length := by omega
      subst this
      rw [List.getD_append_right _ _ _ _ (by simp [dx0_length h])]
      simp only [List.length_set, dx0_length h, Nat.sub_self, List.getD_cons_zero]
      have := inner (xk.length - 1) (by omega)
      rw [max_eq_left (by omega : 1 ≤ xk.length - 1)] at this
      rw [min_eq_right (by omega : xk.length - 1 ≤ max xk.length 1), ← this]
      rw [List.getLastD_eq_getLast?, List.getLast?_eq_getElem?, List.length_set, dx0_length h]
      rfl
  · rw [if_neg h1, if_pos (by omega)]
    have : i = 0 ∨ i = 1 := by omega
    rcases this with rfl | rfl <;> rfl

theorem width_pos {xk : List K} (h : xk ≠ []) (hs : xk.Pairwise (· < ·)) (i : ℕ) : 0 < width xk i := by
  have hl : 0 < xk.length := List.length_pos_iff.mpr h
  unfold width
  split
  · exact one_pos
  · next h1 =>
    have h2 : min (max i 1) (xk.length - 1) < xk.length := by omega
    have h3 : min (max i 1) (xk.length - 1) - 1 < min (max i 1) (xk.length - 1) := by omega
    rw [List.getD_eq_getElem _ _ h2, List.getD_eq_getElem _ _ (by omega), sub_pos]
    exact List.pairwise_iff_getElem.mp hs _ _ _ _ h3

theorem coef_length (p : PwPoly K K) (v : K) : (coef p v).length = p.c.length := by simp [coef]

theorem coef_getD {p : PwPoly K K} (hp : WF p) (v : K) {i : ℕ} (hi : i ≤ p.xk.length) :
    (coef p v).getD i [] = PwPoly.addHead (-v) (piece p i) := by
  have : i < p.c.length := by rw [hp.len]; omega
  unfold coef piece
  rw [List.getD_eq_getElem _ _ (by simpa using this), List.getElem_map, List.getD_eq_getElem _ _ this]

theorem addHead_getD (w : K) {c : List K} (hc : c ≠ []) (k : ℕ) :
    (PwPoly.addHead w c).getD k 0 = c.getD k 0 + if k = 0 then w else 0 := by
  cases c with
  | nil => simp at hc
  | cons a l => cases k <;> simp [PwPoly.addHead]

theorem taylorCoeff_addHead (w : K) {c : List K} (hc : c ≠ []) (x : K) (k : ℕ) :
    taylorCoeff (PwPoly.addHead w c) x k = taylorCoeff c x k + if k = 0 then w else 0 := by
  cases c with
  | nil => simp at hc
  | cons a l =>
    cases k with
    | zero => simp only [taylorCoeff_zero, PwPoly.addHead, polyVal_cons, if_true]; ring
    | succ k => simp [PwPoly.addHead, taylorCoeff_cons_succ]

theorem piece_ne {p : PwPoly K K} (hp : WF p) {i : ℕ} (hi : i ≤ p.xk.length) : piece p i ≠ [] := by
  intro h
  have := hp.piece_length hi
  rw [h] at this
  have := hp.pos
  simp at *; omega

theorem scale_getD (d : K) (l : List K) (k : ℕ) : (scale d l).getD k 0 = l.getD k 0 * d ^ k := by
  unfold scale
  by_cases h : k < l.length
  · rw [List.getD_eq_getElem _ _ (by simpa using h), List.getElem_mapIdx, List.getD_eq_getElem _ _ h]
  · rw [List.getD_eq_default _ _ (by simpa using h), List.getD_eq_default _ _ (by omega), zero_mul]

theorem sc_getD {p : PwPoly K K} (hp : WF p) (v : K) {i : ℕ} (hi : i ≤ p.xk.length) (k : ℕ) :
    (sc p v i).getD k 0 = unitCoef p v i k := by
  unfold sc unitCoef
  rw [scale_getD, coef_getD hp v hi, addHead_getD _ (piece_ne hp hi), dxs_getD hp.ne hi]
  by_cases h : k = 0
  · subst h; simp; ring
  · simp [h]

theorem sc_length {p : PwPoly K K} (hp : WF p) (v : K) {i : ℕ} (hi : i ≤ p.xk.length) :
    (sc p v i).length = p.n := by
  unfold sc scale
  rw [List.length_mapIdx, coef_getD hp v hi, PwPoly.length_addHead, hp.piece_length hi]

theorem cup_length {p : PwPoly K K} (hp : WF p) (v : K) : (cup p v).length = p.xk.length := by
  unfold cup
  rw [List.length_zipWith, List.length_dropLast, coef_length, hp.len, dx0_length hp.ne]; simp

theorem cup_getD {p : PwPoly K K} (hp : WF p) (v : K) {i : ℕ} (hi : i < p.xk.length) :
    (cup p v).getD i [] = polyddxAll (PwPoly.addHead (-v) (piece p i)) (p.xk.getD i 0 - origin p.xk i) := by
  rw [← coef_getD hp v (by omega), ← dx0_getD hp.ne hi]
  have h1 : i < (cup p v).length := by rw [cup_length hp]; exact hi
  have h2 : i < (coef p v).length := by rw [coef_length, hp.len]; omega
  rw [List.getD_eq_getElem _ _ h1, List.getD_eq_getElem _ _ h2,
    List.getD_eq_getElem _ _ (by rw [dx0_length hp.ne]; exact hi)]
  simp [cup]

theorem end_eq {xk : List K} (h : xk ≠ []) {i : ℕ} (hi : i < xk.length) :
    xk.getD i 0 - origin xk i = if i = 0 then 0 else width xk i := by
  unfold origin width
  by_cases h0 : i = 0
  · subst h0; simp
  · rw [if_neg h0, if_neg (by omega), max_eq_left (by omega), min_eq_left (by omega)]

theorem scup_getD {p : PwPoly K K} (hp : WF p) (hn : 2 ≤ p.n) (v : K) {i : ℕ} (hi : i < p.xk.length) (k : ℕ) :
    (scup p v i).getD k 0 = (-1) ^ k * endCoef p v i k := by
  have hne := piece_ne hp hi.le
  have hlen : (PwPoly.addHead (-v) (piece p i)).length = p.n := by
    rw [PwPoly.length_addHead, hp.piece_length hi.le]
  have e : ∀ (l : List K) (k : ℕ), (l.mapIdx (fun k a => if k % 2 = 1 then -a else a)).getD k 0 = (-1) ^ k * l.getD k 0 := by
    intro l k
    have hpow : ((-1 : K)) ^ k = if k % 2 = 1 then -1 else 1 := by
      rcases Nat.even_or_odd k with h | h
      · rw [h.neg_one_pow, if_neg (by have := Nat.even_iff.mp h; omega)]
      · rw [h.neg_one_pow, if_pos (Nat.odd_iff.mp h)]
    by_cases h : k < l.length
    · rw [List.getD_eq_getElem _ _ (by simpa using h), List.getElem_mapIdx, List.getD_eq_getElem _ _ h, hpow]
      split <;> ring
    · rw [List.getD_eq_default _ _ (by simpa using h), List.getD_eq_default _ _ (by omega), mul_zero]
  unfold scup
  rw [e, scale_getD, cup_getD hp v hi, dxs_getD hp.ne hi.le]
  congr 1
  unfold polyddxAll endCoef
  rw [polyddx_eq _ _ _ (Or.inl (by rw [hlen]; exact hn)), ← end_eq hp.ne hi]
  by_cases hk : k < p.n
  · rw [tcList_getD _ _ _ _ (by rw [hlen]; omega), taylorCoeff_addHead _ hne]
    by_cases h : k = 0
    · subst h; simp; ring
    · simp [h]
  · rw [List.getD_eq_default _ _ (by rw [length_tcList, hlen]; omega),
      taylorCoeff_eq_zero _ _ _ (by rw [hp.piece_length hi.le]; omega), if_neg (by have := hp.pos; omega)]
    ring

theorem scup_length {p : PwPoly K K} (hp : WF p) (hn : 2 ≤ p.n) (v : K) {i : ℕ} (hi : i < p.xk.length) :
    (scup p v i).length = p.n := by
  have hlen : (PwPoly.addHead (-v) (piece p i)).length = p.n := by
    rw [PwPoly.length_addHead, hp.piece_length hi.le]
  unfold scup scale
  rw [List.length_mapIdx, List.length_mapIdx, cup_getD hp v hi]
  unfold polyddxAll
  rw [polyddx_eq _ _ _ (Or.inl (by rw [hlen]; exact hn)), length_tcList, hlen]
  omega

theorem SignChange_congr {n : ℕ} {a b : ℕ → K} (h : ∀ k, a k = b k) : SignChange n a ↔ SignChange n b := by
  rw [show a = b from funext h]

theorem maybe_iff {p : PwPoly K K} (hp : WF p) (hn : 2 ≤ p.n) (v : K) {i : ℕ} (hi : i ≤ p.xk.length) :
    maybe p v i = true ↔ MayVanish p v i := by
  unfold Roots.maybe MayVanish
  rw [Bool.and_eq_true]
  rw [and_iff_right hi]
  refine and_congr ?_ ?_
  · by_cases h : i = 0
    · subst h; simp
    · rw [if_neg h, signChange_iff, sc_length hp v hi, SignChange_congr (sc_getD hp v hi)]
      constructor
      · intro h' _; exact h'
      · intro h'; exact h' (by omega)
  · by_cases h : i < p.xk.length
    · rw [if_pos h, signChange_iff, scup_length hp hn v h, SignChange_congr (scup_getD hp hn v h)]
      tauto
    · simp [h]

theorem unitCoef_zero_of_ge {p : PwPoly K K} (hp : WF p) (v : K) {i : ℕ} (hi : i ≤ p.xk.length) {k : ℕ}
    (hk : p.n ≤ k) : unitCoef p v i k = 0 := by
  rw [← sc_getD hp v hi, List.getD_eq_default _ _ (by rw [sc_length hp v hi]; exact hk)]

/-- In the unit variable the piece is the polynomial with coefficients `unitCoef`. -/
theorem unit_val {p : PwPoly K K} (hp : WF p) (v : K) {i : ℕ} (hi : i ≤ p.xk.length) (t : K) :
    ∑ k ∈ range p.n, unitCoef p v i k * t ^ k = pieceVal p i (t * width p.xk i + origin p.xk i) - v := by
  unfold pieceVal polyVal unitCoef
  rw [hp.piece_length hi]
  simp only [sub_mul, sum_sub_distrib]
  congr 1
  · refine sum_congr rfl fun k _ => ?_
    rw [smul_eq_mul, add_sub_cancel_right, mul_pow]; ring
  · have := hp.pos
    rw [Finset.sum_eq_single 0 (fun b _ hb => by simp [hb]) (fun h => absurd (mem_range.mpr (by omega)) h)]
    simp

theorem taylor_eval (c : List K) (x s : K) (N : ℕ) (hN : c.length ≤ N) :
    ∑ k ∈ range N, s ^ k * taylorCoeff c x k = polyVal c (x + s) := by
  rw [← taylorCoeff_zero, ← sum_taylor_taylor c x s 0 N hN]
  simp [smul_eq_mul]

theorem end_val {p : PwPoly K K} (hp : WF p) (v : K) {i : ℕ} (hi : i < p.xk.length) (s : K) :
    ∑ k ∈ range p.n, (-1) ^ k * endCoef p v i k * s ^ k = pieceVal p i (p.xk.getD i 0 - s * width p.xk i) - v := by
  unfold endCoef
  rw [← end_eq hp.ne hi]
  have h1 := taylor_eval (piece p i) (p.xk.getD i 0 - origin p.xk i) (-(s * width p.xk i)) p.n
    (by rw [hp.piece_length hi.le])
  have h2 : pieceVal p i (p.xk.getD i 0 - s * width p.xk i) =
      polyVal (piece p i) (p.xk.getD i 0 - origin p.xk i + -(s * width p.xk i)) := by
    unfold pieceVal; congr 1; ring
  rw [h2, ← h1]
  simp only [mul_sub, sub_mul, sum_sub_distrib]
  congr 1
  · refine sum_congr rfl fun k _ => ?_
    rw [neg_pow (s * width p.xk i), mul_pow]; ring
  · have := hp.pos
    rw [Finset.sum_eq_single 0 (fun b _ hb => by simp [hb]) (fun h => absurd (mem_range.mpr (by omega)) h)]
    simp

end Npplus
