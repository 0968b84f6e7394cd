import Verif.Model.Roots
import Verif.Spec.Roots
import Verif.Lemmas.PwPoly
import Verif.Lemmas.Poly
import Mathlib.Tactic.FieldSimp
import Mathlib.Tactic.Linarith
import Mathlib.Tactic.LinearCombination
import Mathlib.Algebra.BigOperators.Fin

/-! Helper lemmas about `roots`. -/

set_option linter.unusedSectionVars false
set_option linter.unusedVariables false

namespace Npplus

open Spec Finset Roots

variable {K : Type} [Field K] [LinearOrder K] [IsStrictOrderedRing K]

theorem polyVal_of_getD {l m : List K} (h : ∀ k, l.getD k 0 = m.getD k 0) (t : K) : polyVal l t = polyVal m t := by
  have e : ∀ (l : List K) N, l.length ≤ N → polyVal l t = ∑ k ∈ range N, t ^ k • l.getD k 0 := by
    intro l N hN
    unfold polyVal
    refine Finset.sum_subset (fun k hk => ?_) (fun k hk hk' => ?_)
    · rw [mem_range] at hk ⊢; omega
    · rw [mem_range] at hk'; rw [List.getD_eq_default _ _ (by omega)]; simp
  rw [e l (max l.length m.length) (le_max_left _ _), e m _ (le_max_right _ _)]
  exact sum_congr rfl fun k _ => by rw [h]

theorem signChange_iff (l : List K) : signChange l = true ↔ SignChange l.length (fun k => l.getD k 0) := by
  unfold signChange SignChange
  rw [List.any_eq_true]
  constructor
  · rintro ⟨b, hb, hb'⟩
    obtain ⟨k, hk, e⟩ := List.getElem_of_mem hb
    have hk' : k + 1 < l.length := by simp at hk; omega
    refine ⟨k, hk', ?_⟩
    simp only [id] at hb'
    rw [← e] at hb'
    simp only [List.getElem_zipWith, List.getElem_tail, bne_iff_ne, ne_eq, decide_eq_decide] at hb'
    beta_reduce
    rw [List.getD_eq_getElem _ _ hk', List.getD_eq_getElem _ _ (by omega : k < l.length)]
    tauto
  · rintro ⟨k, hk, h⟩
    beta_reduce at h
    rw [List.getD_eq_getElem _ _ hk, List.getD_eq_getElem _ _ (by omega : k < l.length)] at h
    refine ⟨_, List.getElem_mem (n := k) (by simp; omega), ?_⟩
    simp only [id, List.getElem_zipWith, List.getElem_tail, bne_iff_ne, ne_eq, decide_eq_decide]
    tauto

/-- Descartes' rule of signs in the weakest form: a positive root needs a sign change. -/
theorem descartes {n : ℕ} {a : ℕ → K} {s : K} (hs : 0 < s) (h0 : ∑ k ∈ range n, a k * s ^ k = 0)
    (hne : ∃ k < n, a k ≠ 0) : SignChange n a := by
  by_contra hc
  have hstep : ∀ k, k + 1 < n → (a (k+1) < 0 ↔ a k < 0) := by
    intro k hk
    by_contra hk'
    exact hc ⟨k, hk, by tauto⟩
  have hall : ∀ k < n, (a k < 0 ↔ a 0 < 0) := by
    intro k
    induction k with
    | zero => intro _; rfl
    | succ k ih => intro hk; rw [hstep k hk, ih (by omega)]
  obtain ⟨m, hm, hm'⟩ := hne
  by_cases ha : a 0 < 0
  · have : ∑ k ∈ range n, a k * s ^ k < 0 := by
      refine Finset.sum_neg (fun k hk => ?_) ⟨m, mem_range.mpr hm⟩
      exact mul_neg_of_neg_of_pos ((hall k (mem_range.mp hk)).mpr ha) (pow_pos hs k)
    exact absurd h0 this.ne
  · have hnn : ∀ k ∈ range n, 0 ≤ a k * s ^ k := fun k hk =>
      mul_nonneg (not_lt.mp (fun h => ha ((hall k (mem_range.mp hk)).mp h))) (pow_pos hs k).le
    have := (Finset.sum_eq_zero_iff_of_nonneg hnn).mp h0 m (mem_range.mpr hm)
    rcases mul_eq_zero.mp this with h | h
    · exact hm' h
    · exact (pow_pos hs m).ne' h

/-- The eigenvalues of the companion matrix are the roots of the polynomial. -/
theorem companion_eig {n : ℕ} (hn : 1 ≤ n) (c : List K) (hc : c.getD n 0 ≠ 0) (t : K) :
    (∃ u : Fin n → K, u ≠ 0 ∧ ∀ i, ∑ j, companion n c i j * u j = t * u i) ↔
      ∑ k ∈ range (n + 1), c.getD k 0 * t ^ k = 0 := by
  -- tails of Horner's rule
  set H : ℕ → K := fun i => ∑ k ∈ range (n + 1 - i), c.getD (i + k) 0 * t ^ k with hH
  have Hrec : ∀ i ≤ n, H i = c.getD i 0 + t * H (i + 1) := by
    intro i hi
    simp only [hH]
    rw [show n + 1 - i = (n - i) + 1 by omega, sum_range_succ', show n + 1 - (i + 1) = n - i by omega, mul_sum,
      add_comm]
    congr 1
    · simp
    · refine sum_congr rfl fun k _ => ?_
      rw [show i + (k + 1) = i + 1 + k by ring, pow_succ]; ring
  have Hn1 : H (n + 1) = 0 := by simp [hH]
  have H0 : ∑ k ∈ range (n + 1), c.getD k 0 * t ^ k = H 0 := by simp [hH]
  have Hn : H n = c.getD n 0 := by rw [Hrec n le_rfl, Hn1]; ring
  rw [H0]
  -- one row of the product
  have row : ∀ (u : Fin n → K) (i : Fin n), ∑ j, companion n c i j * u j =
      (if h : 0 < i.val then u ⟨i.val - 1, by omega⟩ else 0) - c.getD i.val 0 / c.getD n 0 * u ⟨n - 1, by omega⟩ := by
    intro u i
    have e : ∀ j : Fin n, companion n c i j * u j =
        (if j = (⟨n - 1, by omega⟩ : Fin n) then -(c.getD i.val 0 / c.getD n 0) * u ⟨n - 1, by omega⟩ else 0) +
          (if 0 < i.val ∧ j.val = i.val - 1 then u j else 0) := by
      intro j
      unfold companion
      by_cases h1 : j.val + 1 = n
      · have : j = (⟨n - 1, by omega⟩ : Fin n) := Fin.ext (by simp; omega)
        rw [if_pos h1, if_pos this, if_neg (by rintro ⟨h2, h3⟩; omega), add_zero, ← this, neg_div]
      · have : j ≠ (⟨n - 1, by omega⟩ : Fin n) := fun h => h1 (by rw [h]; simp; omega)
        rw [if_neg h1, if_neg this, zero_add]
        by_cases h2 : i.val = j.val + 1
        · rw [if_pos h2, if_pos ⟨by omega, by omega⟩, one_mul]
        · rw [if_neg h2, if_neg (by rintro ⟨h3, h4⟩; omega), zero_mul]
    rw [sum_congr rfl fun j _ => e j, sum_add_distrib, sum_ite_eq']
    simp only [mem_univ, if_true]
    by_cases h : 0 < i.val
    · rw [dif_pos h]
      have : ∑ x : Fin n, (if 0 < i.val ∧ x.val = i.val - 1 then u x else 0) = u ⟨i.val - 1, by omega⟩ := by
        rw [Finset.sum_eq_single (⟨i.val - 1, by omega⟩ : Fin n)]
        · rw [if_pos ⟨h, rfl⟩]
        · intro b _ hb; rw [if_neg]; rintro ⟨_, h4⟩; exact hb (Fin.ext h4)
        · simp
      rw [this]; ring
    · rw [dif_neg h]
      have : ∑ x : Fin n, (if 0 < i.val ∧ x.val = i.val - 1 then u x else 0) = 0 :=
        sum_eq_zero fun b _ => if_neg (by rintro ⟨h4, _⟩; exact h h4)
      rw [this]; ring
  constructor
  · rintro ⟨u, hu, hrow⟩
    set w := u ⟨n - 1, by omega⟩ with hw
    have key : ∀ d, ∀ i (hi : i < n), i + d = n - 1 → u ⟨i, hi⟩ = w / c.getD n 0 * H (i + 1) := by
      intro d
      induction d with
      | zero =>
        intro i hi h
        have : i = n - 1 := by omega
        subst this
        rw [show n - 1 + 1 = n by omega, Hn, div_mul_cancel₀ _ hc]
      | succ d ih =>
        intro i hi h
        have hi' : i + 1 < n := by omega
        have r := hrow ⟨i + 1, hi'⟩
        rw [row] at r
        simp only [Nat.zero_lt_succ, dif_pos, Nat.add_sub_cancel] at r
        rw [ih (i + 1) hi' (by omega)] at r
        rw [Hrec (i + 1) (by omega), ← hw] at *
        have : u ⟨i, hi⟩ = t * (w / c.getD n 0 * H (i + 1 + 1)) + c.getD (i + 1) 0 / c.getD n 0 * w := by
          linear_combination r
        rw [this]; ring
    have hw0 : w ≠ 0 := by
      intro h
      apply hu
      funext i
      rw [show i = ⟨i.val, i.2⟩ from rfl, key (n - 1 - i.val) i.val i.2 (by omega), h]; simp
    have r := hrow ⟨0, by omega⟩
    rw [row] at r
    simp only [lt_irrefl, dif_neg, not_false_eq_true] at r
    rw [key (n - 1) 0 (by omega) (by omega), ← hw] at r
    have : w / c.getD n 0 * H 0 = 0 := by
      rw [Hrec 0 (by omega)]
      linear_combination -r
    rcases mul_eq_zero.mp this with h | h
    · exact absurd h (div_ne_zero hw0 hc)
    · exact h
  · intro h
    refine ⟨fun i => H (i.val + 1), ?_, ?_⟩
    · intro hz
      have := congrFun hz ⟨n - 1, by omega⟩
      simp only [Pi.zero_apply] at this
      rw [show n - 1 + 1 = n by omega, Hn] at this
      exact hc this
    · intro i
      rw [row]
      simp only
      rw [show n - 1 + 1 = n by omega, Hn, div_mul_cancel₀ _ hc]
      by_cases hi : 0 < i.val
      · rw [dif_pos hi, show i.val - 1 + 1 = i.val by omega, Hrec i.val (by omega)]; ring
      · rw [dif_neg hi]
        have : i.val = 0 := by omega
        rw [this]
        rw [Hrec 0 (by omega)] at h
        linear_combination -h

end Npplus
