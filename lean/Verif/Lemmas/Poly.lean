import Verif.Model.Poly
import Verif.Spec.Poly
import Mathlib.Algebra.BigOperators.Module
import Mathlib.Tactic.Ring
import Mathlib.Tactic.Module
import Mathlib.Tactic.Linarith
import Mathlib.Tactic.NoncommRing

/-! Helper lemmas about coefficient lists. -/

set_option linter.unusedSectionVars false

namespace Npplus
open Finset Spec

variable {K : Type*} [Field K] {V : Type*} [AddCommGroup V] [Module K V]

@[simp] theorem polyVal_nil (x : K) : polyVal ([] : List V) x = 0 := by simp [polyVal]

theorem polyVal_cons (a : V) (c : List V) (x : K) :
    polyVal (a :: c) x = a + x • polyVal c x := by
  simp [polyVal, sum_range_succ', smul_sum, pow_succ', mul_smul, add_comm]

theorem taylorCoeff_zero (c : List V) (x : K) : taylorCoeff c x 0 = polyVal c x := by
  simp [taylorCoeff, polyVal]

@[simp] theorem taylorCoeff_nil (x : K) (k : ℕ) : taylorCoeff ([] : List V) x k = 0 := by
  simp [taylorCoeff]

theorem taylorCoeff_cons_succ (a : V) (c : List V) (x : K) (k : ℕ) :
    taylorCoeff (a :: c) x (k+1) = x • taylorCoeff c x (k+1) + taylorCoeff c x k := by
  simp only [taylorCoeff, List.length_cons, sum_range_succ', smul_sum]
  simp only [Nat.choose_zero_succ, Nat.cast_zero, zero_mul, zero_smul, add_zero, List.getD_cons_succ,
    ← sum_add_distrib]
  refine sum_congr rfl fun i _ => ?_
  rw [smul_smul, ← add_smul]
  congr 1
  rw [Nat.choose_succ_succ]
  rcases Nat.lt_or_ge i (k+1) with h | h
  · rw [Nat.choose_eq_zero_of_lt h]; simp
  · obtain ⟨j, rfl⟩ := Nat.exists_eq_add_of_le h
    have h1 : k + 1 + j + 1 - (k + 1) = j + 1 := by omega
    have h2 : k + 1 + j - (k+1) = j := by omega
    have h3 : k + 1 + j - k = j + 1 := by omega
    rw [h1, h2, h3]; push_cast; ring

theorem polyDeriv_eq (c : List V) (x : K) (k : ℕ) :
    polyDeriv c x k = (Nat.factorial k : K) • taylorCoeff c x k := by
  simp only [polyDeriv, taylorCoeff, smul_sum, smul_smul]
  refine sum_congr rfl fun i _ => ?_
  rw [Nat.descFactorial_eq_factorial_mul_choose]; push_cast; congr 1; ring

/-- the list of all Taylor coefficients up to `nd`. -/
def tcList (c : List V) (x : K) (nd : ℕ) : List V := (List.range (nd+1)).map (taylorCoeff c x)

theorem backFrom3_append (pre : List V) (a b : V) :
    backFrom3 (pre ++ [a, b]) = pre.reverse := by
  simp [backFrom3]

theorem polysetup_append (pre : List V) (a b : V) (x : K) :
    polysetup (pre ++ [a, b]) x = a + x • b := by
  simp [polysetup]

theorem eq_append_of_two_le (c : List V) (h : 2 ≤ c.length) :
    ∃ pre a b, c = pre ++ [a, b] := by
  rcases List.eq_nil_or_concat c with rfl | ⟨c', b, rfl⟩
  · simp at h
  · rcases List.eq_nil_or_concat c' with rfl | ⟨c'', a, rfl⟩
    · simp at h
    · exact ⟨c'', a, b, by simp⟩

theorem polyfun_eq (c : List V) (x : K) : polyfun c x = polyVal c x := by
  rcases Nat.lt_or_ge c.length 2 with h | h
  · match c, h with
    | [], _ => simp [polyfun, backFrom3, polysetup]
    | [a], _ => simp [polyfun, backFrom3, polysetup, polyVal_cons]
  · obtain ⟨pre, a, b, rfl⟩ := eq_append_of_two_le c h
    rw [polyfun, backFrom3_append, polysetup_append, List.foldl_reverse]
    induction pre with
    | nil => simp [polyVal_cons]
    | cons d pre ih =>
      simp only [List.cons_append, List.foldr_cons, polyVal_cons]
      rw [ih (by simp), add_comm]

theorem tcList_cons (a : V) (c : List V) (x : K) (nd : ℕ) :
    tcList (a :: c) x nd = polyddxStep x nd (tcList c x nd) a := by
  apply List.ext_getElem
  · simp [tcList, polyddxStep]
  · intro k h1 h2
    simp only [tcList, polyddxStep, List.getElem_map, List.getElem_range, List.getElem_zipWith]
    cases k with
    | zero => simp [taylorCoeff_zero, polyVal_cons, add_comm]
    | succ k => simp [taylorCoeff_cons_succ]

theorem tcList_pair (a b : V) (x : K) (nd : ℕ) :
    tcList [a, b] x nd = polyddxInit [a, b] x nd := by
  have h2 : ∀ k, taylorCoeff [b] x (k+1) = 0 := by intro k; simp [taylorCoeff_cons_succ]
  have h0 : taylorCoeff [b] x 0 = b := by simp [taylorCoeff_zero, polyVal_cons]
  cases nd with
  | zero =>
    simp [tcList, polyddxInit, polysetup, taylorCoeff_zero, polyVal_cons]
  | succ nd =>
    apply List.ext_getElem
    · simp [tcList, polyddxInit]
    · intro k h1 h3
      match k with
      | 0 => simp [tcList, polyddxInit, polysetup, taylorCoeff_zero, polyVal_cons]
      | 1 =>
        have := h2 0
        simp [tcList, polyddxInit, taylorCoeff_cons_succ] at this ⊢
        simp [h0]
      | k+2 =>
        simp [tcList, polyddxInit, taylorCoeff_cons_succ]

theorem polyddx_eq (c : List V) (x : K) (nd : ℕ) (h : 2 ≤ c.length ∨ nd = 0) :
    polyddx c x nd = tcList c x nd := by
  rcases Nat.lt_or_ge c.length 2 with h' | h'
  · have hnd : nd = 0 := by omega
    subst hnd
    match c, h' with
    | [], _ => simp [polyddx, backFrom3, polyddxInit, polysetup, tcList]
    | [a], _ =>
      simp [polyddx, backFrom3, polyddxInit, polysetup, tcList, taylorCoeff_zero, polyVal_cons]
  · obtain ⟨pre, a, b, rfl⟩ := eq_append_of_two_le c h'
    have hinit : polyddxInit (pre ++ [a, b]) x nd = polyddxInit [a, b] x nd := by
      simp [polyddxInit, polysetup]
    rw [polyddx, backFrom3_append, hinit, List.foldl_reverse, ← tcList_pair]
    clear hinit h h'
    induction pre with
    | nil => simp
    | cons d pre ih =>
      rw [List.cons_append, List.foldr_cons, tcList_cons d, ih]

@[simp] theorem length_tcList (c : List V) (x : K) (nd : ℕ) : (tcList c x nd).length = nd + 1 := by
  simp [tcList]

theorem tcList_getD (c : List V) (x : K) (nd k : ℕ) (hk : k ≤ nd) :
    (tcList c x nd).getD k 0 = taylorCoeff c x k := by
  simp [tcList, List.getD, List.getElem?_range (show k < nd + 1 by omega)]

theorem taylorCoeff_eq_zero (c : List V) (x : K) (k : ℕ) (h : c.length ≤ k) :
    taylorCoeff c x k = 0 := by
  refine sum_eq_zero fun i hi => ?_
  rw [mem_range] at hi
  rw [Nat.choose_eq_zero_of_lt (by omega)]; simp

/-- translation at the level of sums -/
theorem sum_taylor_taylor (c : List V) (x t : K) (k N : ℕ) (hN : c.length ≤ N) :
    ∑ j ∈ range N, ((j.choose k : K) * t ^ (j - k)) • taylorCoeff c x j
      = taylorCoeff c (x + t) k := by
  induction c generalizing N k with
  | nil => simp
  | cons a c ih =>
    obtain ⟨N, rfl⟩ : ∃ M, N = M + 1 := ⟨N - 1, by simp at hN; omega⟩
    have hN' : c.length ≤ N := by simpa using hN
    rw [sum_range_succ']
    cases k with
    | zero =>
      have e1 := ih 0 (N+1) (by omega)
      have e2 := ih 0 N hN'
      rw [sum_range_succ'] at e1
      simp only [Nat.choose_zero_right, Nat.cast_one, one_mul, Nat.sub_zero, pow_zero, one_smul,
        taylorCoeff_zero] at e1 e2 ⊢
      rw [polyVal_cons, polyVal_cons]
      simp only [taylorCoeff_cons_succ, smul_add, sum_add_distrib]
      have e3 : ∑ j ∈ range N, t ^ (j+1) • x • taylorCoeff c x (j+1)
          = x • (polyVal c (x+t) - polyVal c x) := by
        rw [← e1, add_sub_cancel_right, smul_sum]
        exact sum_congr rfl fun i _ => smul_comm _ _ _
      have e4 : ∑ j ∈ range N, t ^ (j+1) • taylorCoeff c x j = t • polyVal c (x+t) := by
        rw [← e2, smul_sum]
        exact sum_congr rfl fun i _ => by rw [smul_smul, pow_succ']
      rw [e3, e4]; module
    | succ k =>
      have e1 := ih (k+1) (N+1) (by omega)
      have e2 := ih k N hN'
      have e5 := ih (k+1) N hN'
      rw [sum_range_succ'] at e1
      simp only [Nat.choose_zero_succ, Nat.cast_zero, zero_mul, zero_smul, add_zero] at e1 ⊢
      rw [taylorCoeff_cons_succ]
      simp only [taylorCoeff_cons_succ, smul_add, sum_add_distrib]
      have e3 : ∑ j ∈ range N, (((j+1).choose (k+1) : K) * t ^ (j+1-(k+1))) •
          x • taylorCoeff c x (j+1) = x • taylorCoeff c (x+t) (k+1) := by
        rw [← e1, smul_sum]
        exact sum_congr rfl fun i _ => smul_comm _ _ _
      have e4 : ∑ j ∈ range N, (((j+1).choose (k+1) : K) * t ^ (j+1-(k+1))) • taylorCoeff c x j
          = taylorCoeff c (x+t) k + t • taylorCoeff c (x+t) (k+1) := by
        rw [← e2, ← e5, smul_sum, ← sum_add_distrib]
        refine sum_congr rfl fun i _ => ?_
        rw [smul_smul, ← add_smul]
        congr 1
        rw [Nat.choose_succ_succ]
        rcases Nat.lt_or_ge i (k+1) with h | h
        · rw [Nat.choose_eq_zero_of_lt h]; simp
        · obtain ⟨j, rfl⟩ := Nat.exists_eq_add_of_le h
          have h1 : k + 1 + j + 1 - (k + 1) = j + 1 := by omega
          have h2 : k + 1 + j - (k+1) = j := by omega
          have h3 : k + 1 + j - k = j + 1 := by omega
          rw [h1, h2, h3]; push_cast; ring
      rw [e3, e4]; module

theorem taylorCoeff_tcList (c : List V) (x t : K) (k nd : ℕ) (h : c.length ≤ nd + 1) :
    taylorCoeff (tcList c x nd) t k = taylorCoeff c (x + t) k := by
  rw [← sum_taylor_taylor c x t k (nd+1) h, taylorCoeff, length_tcList]
  refine sum_congr rfl fun i hi => ?_
  rw [tcList_getD _ _ _ _ (by rw [mem_range] at hi; omega)]

theorem polyVal_tcList (c : List V) (x t : K) (nd : ℕ) (h : c.length ≤ nd + 1) :
    polyVal (tcList c x nd) t = polyVal c (x + t) := by
  rw [← taylorCoeff_zero, taylorCoeff_tcList _ _ _ _ _ h, taylorCoeff_zero]

theorem taylorCoeff_at_zero (c : List V) (k : ℕ) :
    taylorCoeff c (0:K) k = c.getD k 0 := by
  rw [taylorCoeff]
  rcases Nat.lt_or_ge k c.length with h | h
  · rw [sum_eq_single k]
    · simp
    · intro i _ hik
      rcases Nat.lt_or_ge i k with h' | h'
      · rw [Nat.choose_eq_zero_of_lt h']; simp
      · rw [zero_pow (by omega)]; simp
    · intro hk; simp at hk; omega
  · rw [List.getD, List.getElem?_eq_none h, Option.getD_none]
    refine sum_eq_zero fun i hi => ?_
    rw [mem_range] at hi
    rw [Nat.choose_eq_zero_of_lt (by omega)]; simp

theorem polyVal_at_zero (c : List V) : polyVal c (0:K) = c.getD 0 0 := by
  rw [← taylorCoeff_zero, taylorCoeff_at_zero]

end Npplus
