import Verif.Model.SolvePer
import Mathlib.Tactic.Ring
import Mathlib.Tactic.Linarith
import Mathlib.Tactic.IntervalCases
import Mathlib.Data.List.GetD
import Mathlib.Algebra.BigOperators.Intervals
import Mathlib.LinearAlgebra.Matrix.SchurComplement

/-! Helper lemmas for solveper.py. -/

set_option linter.unusedSectionVars false
namespace Npplus
open Spec

variable {K : Type} [Field K] {V : Type} [AddCommGroup V] [Module K V]

/-- Row and column of a flat index are unique. -/
theorem flat_inj {n r c r' c' : ℕ} (hc : c < n) (hc' : c' < n) (h : r * n + c = r' * n + c') :
    r = r' ∧ c = c' := by
  have h1 : (r * n + c) / n = r := by
    rw [Nat.mul_comm, Nat.mul_add_div (by omega), Nat.div_eq_of_lt hc]; omega
  have h2 : (r' * n + c') / n = r' := by
    rw [Nat.mul_comm, Nat.mul_add_div (by omega), Nat.div_eq_of_lt hc']; omega
  have : r = r' := by rw [← h1, ← h2, h]
  subst this
  exact ⟨rfl, by omega⟩

theorem flat_div {n r c : ℕ} (hc : c < n) : (r * n + c) / n = r ∧ (r * n + c) % n = c := by
  constructor
  · rw [Nat.mul_comm, Nat.mul_add_div (by omega), Nat.div_eq_of_lt hc]; omega
  · rw [Nat.mul_comm, Nat.mul_add_mod, Nat.mod_eq_of_lt hc]

theorem strideSet_eq {N start stop step len : ℕ} (a d : ℕ → K) (h : sliceLen N start stop step = len) :
    strideSet N a start stop step len d = .ok fun f =>
      if start ≤ f ∧ (f - start) % step = 0 ∧ (f - start) / step < len then d ((f - start) / step)
      else a f := by
  unfold strideSet
  simp only [h, if_true]

/-- Number of elements of an upper diagonal slice. -/
theorem sliceLen_upper {n i : ℕ} (hi : i < n) :
    sliceLen (n * n) (i + 1) (n + n * (n - i - 1)) (n + 1) = n - (i + 1) := by
  obtain ⟨t, rfl⟩ : ∃ t, n = i + 1 + t := ⟨n - (i + 1), by omega⟩
  have e : i + 1 + t - i - 1 = t := by omega
  have e' : i + 1 + t - (i + 1) = t := by omega
  rw [e, e']
  unfold sliceLen
  have hmin : min (i + 1 + t + (i + 1 + t) * t) ((i + 1 + t) * (i + 1 + t)) =
      i + 1 + t + (i + 1 + t) * t := by
    apply min_eq_left; nlinarith
  rw [hmin]
  have e2 : i + 1 + t + (i + 1 + t) * t - (i + 1) = t * (i + 1 + t + 1) := by
    have : i + 1 + t + (i + 1 + t) * t = (i + 1) + t * (i + 1 + t + 1) := by ring
    omega
  rw [e2]
  rcases Nat.eq_zero_or_pos t with h0 | h0
  · subst h0; simp
  · rw [if_pos (by nlinarith)]
    have : (t * (i + 1 + t + 1) - 1) / (i + 1 + t + 1) = t - 1 := by
      apply Nat.div_eq_of_lt_le
      · obtain ⟨s, rfl⟩ : ∃ s, t = s + 1 := ⟨t - 1, by omega⟩
        simp only [Nat.add_sub_cancel]
        have : (s + 1) * (i + 1 + (s + 1) + 1) = s * (i + 1 + (s + 1) + 1) + (i + 1 + (s + 1) + 1) := by ring
        omega
      · obtain ⟨s, rfl⟩ : ∃ s, t = s + 1 := ⟨t - 1, by omega⟩
        simp only [Nat.add_sub_cancel]
        have : (s + 1) * (i + 1 + (s + 1) + 1) = s * (i + 1 + (s + 1) + 1) + (i + 1 + (s + 1) + 1) := by ring
        omega
    rw [this]; omega

/-- Number of elements of a lower diagonal slice. -/
theorem sliceLen_lower (n i : ℕ) :
    sliceLen (n * n) ((i + 1) * n) (n * n) (n + 1) = n - (1 + i) := by
  unfold sliceLen
  rw [min_self]
  rcases Nat.lt_or_ge (i + 1) n with h | h
  · obtain ⟨t, rfl⟩ : ∃ t, n = i + 1 + (t + 1) := ⟨n - (i + 1) - 1, by omega⟩
    have e2 : (i + 1 + (t + 1)) * (i + 1 + (t + 1)) - (i + 1) * (i + 1 + (t + 1)) =
        (t + 1) * (i + 1 + (t + 1)) := by
      rw [← Nat.sub_mul]; congr 1; omega
    rw [e2, if_pos (by nlinarith)]
    have : ((t + 1) * (i + 1 + (t + 1)) - 1) / (i + 1 + (t + 1) + 1) = t := by
      apply Nat.div_eq_of_lt_le
      · have : (t + 1) * (i + 1 + (t + 1)) = t * (i + 1 + (t + 1) + 1) + (i + 2) := by ring
        omega
      · have : (t + 1) * (i + 1 + (t + 1) + 1) = (t + 1) * (i + 1 + (t + 1)) + (t + 1) := by ring
        omega
    rw [this]; omega
  · rw [if_neg (by have := Nat.mul_le_mul_right n h; omega)]; omega

/-- Which elements of a row-major `n × n` array are in the slice `[i+1::n+1]`. -/
theorem upper_hit {n i r c : ℕ} (hr : r < n) (hc : c < n) :
    (i + 1 ≤ r * n + c ∧ (r * n + c - (i + 1)) % (n + 1) = 0 ∧
      (r * n + c - (i + 1)) / (n + 1) < n - (i + 1)) ↔ c = r + i + 1 := by
  constructor
  · rintro ⟨h1, h2, h3⟩
    set t := (r * n + c - (i + 1)) / (n + 1) with ht
    have h4 : r * n + c - (i + 1) = t * (n + 1) := by
      have := Nat.div_add_mod (r * n + c - (i + 1)) (n + 1)
      rw [h2, ← ht, Nat.mul_comm (n + 1)] at this; omega
    clear_value t
    have h5 : r * n + c = t * n + (t + i + 1) := by
      have : t * (n + 1) = t * n + t := by ring
      omega
    obtain ⟨e1, e2⟩ := flat_inj hc (by omega) h5
    omega
  · rintro rfl
    have h4 : r * n + (r + i + 1) - (i + 1) = r * (n + 1) := by
      have : r * (n + 1) = r * n + r := by ring
      omega
    rw [h4]
    refine ⟨by omega, Nat.mul_mod_left _ _, ?_⟩
    rw [Nat.mul_div_cancel _ (by omega)]; omega

theorem upper_div {n i r : ℕ} : (r * n + (r + i + 1) - (i + 1)) / (n + 1) = r := by
  have h4 : r * n + (r + i + 1) - (i + 1) = r * (n + 1) := by
    have : r * (n + 1) = r * n + r := by ring
    omega
  rw [h4, Nat.mul_div_cancel _ (by omega)]

theorem lower_hit {n i r c : ℕ} (hr : r < n) (hc : c < n) :
    ((i + 1) * n ≤ r * n + c ∧ (r * n + c - (i + 1) * n) % (n + 1) = 0 ∧
      (r * n + c - (i + 1) * n) / (n + 1) < n - (1 + i)) ↔ r = c + i + 1 := by
  constructor
  · rintro ⟨h1, h2, h3⟩
    set t := (r * n + c - (i + 1) * n) / (n + 1) with ht
    have h4 : r * n + c - (i + 1) * n = t * (n + 1) := by
      have := Nat.div_add_mod (r * n + c - (i + 1) * n) (n + 1)
      rw [h2, ← ht, Nat.mul_comm (n + 1)] at this; omega
    clear_value t
    have h5 : r * n + c = (t + i + 1) * n + t := by
      have : t * (n + 1) = t * n + t := by ring
      have : (t + i + 1) * n = t * n + (i + 1) * n := by ring
      omega
    obtain ⟨e1, e2⟩ := flat_inj hc (by omega) h5
    omega
  · rintro rfl
    have h4 : (c + i + 1) * n + c - (i + 1) * n = c * (n + 1) := by
      have : (c + i + 1) * n = c * n + (i + 1) * n := by ring
      have : c * (n + 1) = c * n + c := by ring
      omega
    rw [h4]
    refine ⟨?_, Nat.mul_mod_left _ _, ?_⟩
    · have : (c + i + 1) * n = c * n + (i + 1) * n := by ring
      omega
    · rw [Nat.mul_div_cancel _ (by omega)]; omega

theorem lower_div {n i c : ℕ} : ((c + i + 1) * n + c - (i + 1) * n) / (n + 1) = c := by
  have h4 : (c + i + 1) * n + c - (i + 1) * n = c * (n + 1) := by
    have : (c + i + 1) * n = c * n + (i + 1) * n := by ring
    have : c * (n + 1) = c * n + c := by ring
    omega
  rw [h4, Nat.mul_div_cancel _ (by omega)]

/-- The loop over the upper diagonals. -/
theorem upperLoop {n u : ℕ} (g : ℕ → ℕ → K) (a : ℕ → K) (k : ℕ) (hk : k ≤ n) :
    ∃ a', (List.range k).foldlM (fun a1 i =>
        strideSet (n * n) a1 (i + 1) (n + n * (n - i - 1)) (n + 1) (n - (i + 1))
          (fun t => g (u - 1 - i) (i + 1 + t))) a = .ok a' ∧
      ∀ r < n, ∀ c < n, a' (r * n + c) =
        if r < c ∧ c ≤ r + k then g (u - (c - r)) c else a (r * n + c) := by
  induction k with
  | zero => exact ⟨a, rfl, fun r _ c _ => by rw [if_neg (by omega)]⟩
  | succ k ih =>
    obtain ⟨a', h1, h2⟩ := ih (by omega)
    rw [List.range_succ, List.foldlM_append, h1]
    simp only [List.foldlM_cons, List.foldlM_nil, bind_pure]
    simp only [bind, Except.bind]
    refine ⟨_, (strideSet_eq _ _ (sliceLen_upper (n := n) (i := k) (by omega))), fun r hr c hc => ?_⟩
    by_cases h : c = r + k + 1
    · rw [if_pos ((upper_hit hr hc).mpr h), if_pos (by omega)]
      subst h
      rw [upper_div]
      congr 1 <;> omega
    · rw [if_neg (fun h' => h ((upper_hit hr hc).mp h')), h2 r hr c hc]
      by_cases h' : r < c ∧ c ≤ r + k
      · rw [if_pos h', if_pos (by omega)]
      · rw [if_neg h', if_neg (by omega)]

/-- The loop over the lower diagonals. -/
theorem lowerLoop {n u : ℕ} (g : ℕ → ℕ → K) (a : ℕ → K) (k : ℕ) :
    ∃ a', (List.range k).foldlM (fun a1 i =>
        strideSet (n * n) a1 ((i + 1) * n) (n * n) (n + 1) (n - (1 + i))
          (fun t => g (u + 1 + i) t)) a = .ok a' ∧
      ∀ r < n, ∀ c < n, a' (r * n + c) =
        if c < r ∧ r ≤ c + k then g (u + (r - c)) c else a (r * n + c) := by
  induction k with
  | zero => exact ⟨a, rfl, fun r _ c _ => by rw [if_neg (by omega)]⟩
  | succ k ih =>
    obtain ⟨a', h1, h2⟩ := ih
    rw [List.range_succ, List.foldlM_append, h1]
    simp only [List.foldlM_cons, List.foldlM_nil, bind_pure]
    simp only [bind, Except.bind]
    refine ⟨_, strideSet_eq _ _ (sliceLen_lower n k), fun r hr c hc => ?_⟩
    by_cases h : r = c + k + 1
    · rw [if_pos ((lower_hit hr hc).mpr h), if_pos (by omega)]
      subst h
      rw [lower_div]
      congr 1; omega
    · rw [if_neg (fun h' => h ((lower_hit hr hc).mp h')), h2 r hr c hc]
      by_cases h' : c < r ∧ r ≤ c + k
      · rw [if_pos h', if_pos (by omega)]
      · rw [if_neg h', if_neg (by omega)]

theorem diagToNorm_spec (l u : ℕ) (ab : Arr2 K) (hm : ab.m = u + 1 + l) (hu : u ≤ ab.n) :
    ∃ a, diagToNorm l u ab = .ok a ∧ a.m = ab.n ∧ a.n = ab.n ∧
      ∀ i < ab.n, ∀ j < ab.n, a.get i j = bandMat l u ab.get i j := by
  unfold diagToNorm
  rw [if_neg (by omega)]
  obtain ⟨a1, h1, h2⟩ := upperLoop (n := ab.n) (u := u) ab.get
    (fun f => if f / ab.n = f % ab.n then ab.get u (f % ab.n) else 0) u hu
  obtain ⟨a2, h3, h4⟩ := lowerLoop (n := ab.n) (u := u) ab.get a1 (ab.m - (u + 1))
  simp only [h1, Except.bind, h3, Except.map]
  refine ⟨_, rfl, rfl, rfl, fun i hi j hj => ?_⟩
  simp only
  rw [h4 i hi j hj, h2 i hi j hj, (flat_div hj).1, (flat_div hj).2]
  unfold bandMat
  rcases Nat.lt_trichotomy i j with h | h | h
  · rw [if_neg (by omega)]
    by_cases h' : j ≤ u + i
    · rw [if_pos (by omega), if_pos (by omega)]
      congr 1; omega
    · rw [if_neg (by omega), if_neg (by omega), if_neg (by omega)]
  · subst h
    simp
  · by_cases h' : i ≤ j + l
    · rw [if_pos (by omega), if_pos (by omega)]
      congr 1; omega
    · rw [if_neg (by omega), if_neg (by omega), if_neg (by omega), if_neg (by omega)]

/-! ### solve_periodic -/

theorem rollIdx_neg (n l i : ℕ) : rollIdx n (-l) i = (i + l) % n := by
  unfold rollIdx
  have : ((i : ℤ) - -(l : ℤ)) % n = ((i + l : ℕ) % n : ℕ) := by push_cast; congr 1; ring
  rw [this, Int.toNat_natCast]

theorem maskList_eq {l u n : ℕ} (h : l + u ≤ n) :
    maskList l u n = List.range u ++ (List.range l).map (fun k => n - l + k) := by
  unfold maskList
  obtain ⟨m, rfl⟩ : ∃ m, n = u + m + l := ⟨n - l - u, by omega⟩
  have e : u + m + l - l = u + m := by omega
  rw [List.range_add, List.range_add, List.filter_append, List.filter_append, e]
  have h1 : (List.range u).filter (fun i => decide (rollIdx (u + m + l) (-l) i < l + u)) = List.range u := by
    rw [List.filter_eq_self]
    intro i hi
    rw [List.mem_range] at hi
    simp only [rollIdx_neg, decide_eq_true_eq]
    exact lt_of_le_of_lt (Nat.mod_le _ _) (by omega)
  have h2 : ((List.range m).map (fun x => u + x)).filter
      (fun i => decide (rollIdx (u + m + l) (-l) i < l + u)) = [] := by
    rw [List.filter_eq_nil_iff]
    intro i hi
    rw [List.mem_map] at hi
    obtain ⟨a, ha, rfl⟩ := hi
    rw [List.mem_range] at ha
    simp only [rollIdx_neg, decide_eq_true_eq]
    rw [Nat.mod_eq_of_lt (by omega)]; omega
  have h3 : ((List.range l).map (fun x => u + m + x)).filter
      (fun i => decide (rollIdx (u + m + l) (-l) i < l + u)) = (List.range l).map (fun x => u + m + x) := by
    rw [List.filter_eq_self]
    intro i hi
    rw [List.mem_map] at hi
    obtain ⟨a, ha, rfl⟩ := hi
    rw [List.mem_range] at ha
    simp only [rollIdx_neg, decide_eq_true_eq]
    have : (u + m + a + l) % (u + m + l) = a % (u + m + l) := by
      rw [show u + m + a + l = a + (u + m + l) by ring, Nat.add_mod_right]
    rw [this]
    exact lt_of_le_of_lt (Nat.mod_le _ _) (by omega)
  rw [h1, h2, h3, List.append_nil]

theorem sel_lo {l u n : ℕ} (h : l + u ≤ n) {k : ℕ} (hk : k < u) : (maskList l u n).getD k 0 = k := by
  rw [maskList_eq h, List.getD_append _ _ _ _ (by simpa using hk), List.getD_eq_getElem _ _ (by simpa using hk)]
  simp

theorem sel_hi {l u n : ℕ} (h : l + u ≤ n) {k : ℕ} (hk : k < l) :
    (maskList l u n).getD (u + k) 0 = n - l + k := by
  rw [maskList_eq h, List.getD_append_right _ _ _ _ (by simp), List.getD_eq_getElem _ _ (by simpa using hk)]
  simp

/-- The corner matrix. -/
theorem cornMat_spec {l u n : ℕ} (ab : Arr2 K) (hm : ab.m = l + u + 1) (hn : ab.n = n) (h : l + u ≤ n) :
    ∃ c, cornMat l u n ab = .ok c ∧
      (∀ i < l, ∀ j < u, c i j = 0) ∧
      (∀ i < l, ∀ j < l, c i (u + j) = if i ≤ j then ab.get (l + u - (j - i)) (n - l + j) else 0) ∧
      (∀ i < u, ∀ j < u, c (l + i) j = if j ≤ i then ab.get (i - j) j else 0) ∧
      (∀ i < u, ∀ j < l, c (l + i) (u + j) = 0) := by
  have hup : ∃ c, (if u ≠ 0 then
      (diagToNorm (u - 1) 0 (ab.sub 0 0 u u)).map fun d i j =>
        if l ≤ i ∧ j < u then d.get (i - l) j else 0
    else .ok fun _ _ => 0 : Except PyErr (ℕ → ℕ → K)) = .ok c ∧
      (∀ i < u, ∀ j < u, c (l + i) j = if j ≤ i then ab.get (i - j) j else 0) ∧
      (∀ i j, (i < l ∨ u ≤ j) → c i j = 0) := by
    by_cases hu : u = 0
    · rw [if_neg (by simp [hu])]
      exact ⟨_, rfl, by intro i hi; omega, fun _ _ _ => rfl⟩
    · rw [if_pos hu]
      obtain ⟨a, h1, _, _, h2⟩ := diagToNorm_spec (u - 1) 0 (ab.sub 0 0 u u) (by simp [Arr2.sub]; omega) (by omega)
      rw [h1]
      refine ⟨_, rfl, fun i hi j hj => ?_, fun i j hij => if_neg (by omega)⟩
      simp only
      rw [if_pos ⟨by omega, hj⟩, Nat.add_sub_cancel_left, h2 i hi j hj]
      unfold bandMat Arr2.sub
      simp only [zero_add]
      by_cases hji : j ≤ i
      · rw [if_pos (by omega), if_pos hji]
      · rw [if_neg (by omega), if_neg hji]
  obtain ⟨c, h1, h2, h3⟩ := hup
  unfold cornMat
  simp only [h1, Except.bind]
  by_cases hl : l = 0
  · rw [if_neg (by simp [hl])]
    exact ⟨c, rfl, by intro i hi; omega, by intro i hi; omega, h2, by intro i hi j hj; omega⟩
  · rw [if_pos hl]
    obtain ⟨a, e1, _, _, e2⟩ := diagToNorm_spec 0 (l - 1) (ab.sub (ab.m - l) (n - l) l l)
      (by simp [Arr2.sub]; omega) (by simp [Arr2.sub])
    rw [e1]
    refine ⟨_, rfl, fun i hi j hj => ?_, fun i hi j hj => ?_, fun i hi j hj => ?_, fun i hi j hj => ?_⟩
    · simp only
      rw [if_neg (by omega), h3 _ _ (by omega)]
    · simp only
      rw [if_pos (by omega), Nat.add_sub_cancel_left, e2 i hi j hj]
      unfold bandMat Arr2.sub
      simp only [add_zero]
      by_cases hij : i ≤ j
      · rw [if_pos (by omega), if_pos hij]
        congr 1; omega
      · rw [if_neg (by omega), if_neg hij]
    · simp only
      rw [if_neg (by omega), h2 i hi j hj]
    · simp only
      rw [if_neg (by omega), h3 _ _ (by omega)]

/-- The cyclic matrix is the band matrix plus its two corners. -/
theorem cyclicMat_eq {n l u : ℕ} (h : l + u ≤ n) (ab : ℕ → ℕ → K) {i j : ℕ} (hi : i < n) (hj : j < n) :
    cyclicMat n l u ab i j = bandMat l u ab i j +
      (if i < l ∧ n - l + i ≤ j then ab (n + i + u - j) j else 0) +
      (if n - u + j ≤ i ∧ j < u then ab (i + u - n - j) j else 0) := by
  unfold cyclicMat bandMat
  have hmod : ∀ r, r < l + u + 1 → ((i + u) % n = (j + r) % n ↔
      (j + r = i + u ∨ j + r = i + u + n ∨ j + r + n = i + u)) := by
    intro r hr
    constructor
    · intro e
      have d1 := Nat.div_add_mod (i + u) n
      have d2 := Nat.div_add_mod (j + r) n
      rw [e] at d1
      have hq1 : (i + u) / n < 2 := by rw [Nat.div_lt_iff_lt_mul (by omega)]; omega
      have hq2 : (j + r) / n < 2 := by rw [Nat.div_lt_iff_lt_mul (by omega)]; omega
      generalize (i + u) / n = q1 at *
      generalize (j + r) / n = q2 at *
      interval_cases q1 <;> interval_cases q2 <;> omega
    · rintro (e | e | e)
      · rw [e]
      · rw [e, Nat.add_mod_right]
      · rw [← e, Nat.add_mod_right]
  have key : ∀ (t : ℕ) (P : Prop) [Decidable P], (P → t < l + u + 1) →
      ∑ r ∈ Finset.range (l + u + 1), (if r = t ∧ P then ab r j else 0) = if P then ab t j else 0 := by
    intro t P _ ht
    by_cases hP : P
    · rw [if_pos hP, Finset.sum_eq_single t]
      · simp [hP]
      · intro r _ hr; rw [if_neg (by tauto)]
      · intro h; exact absurd (Finset.mem_range.mpr (ht hP)) h
    · rw [if_neg hP]
      exact Finset.sum_eq_zero fun r _ => if_neg (by tauto)
  rw [← key (u + i - j) (j ≤ u + i ∧ i ≤ j + l) (by omega),
    ← key (n + i + u - j) (i < l ∧ n - l + i ≤ j) (by omega),
    ← key (i + u - n - j) (n - u + j ≤ i ∧ j < u) (by omega),
    ← Finset.sum_add_distrib, ← Finset.sum_add_distrib]
  refine Finset.sum_congr rfl fun r hr => ?_
  rw [Finset.mem_range] at hr
  by_cases h1 : j + r = i + u
  · rw [if_pos ((hmod r hr).mpr (Or.inl h1)), if_pos (by omega), if_neg (by omega), if_neg (by omega)]
    simp
  · by_cases h2 : j + r = i + u + n
    · rw [if_pos ((hmod r hr).mpr (Or.inr (Or.inl h2))), if_neg (by omega), if_pos (by omega),
        if_neg (by omega)]
      simp
    · by_cases h3 : j + r + n = i + u
      · rw [if_pos ((hmod r hr).mpr (Or.inr (Or.inr h3))), if_neg (by omega), if_neg (by omega),
          if_pos (by omega)]
        simp
      · rw [if_neg (fun h' => by have := (hmod r hr).mp h'; tauto), if_neg (by omega), if_neg (by omega),
          if_neg (by omega)]
        simp

theorem sum_range_split (f : ℕ → V) {n a b : ℕ} (h : a + b = n) :
    ∑ j ∈ Finset.range n, f j = ∑ j ∈ Finset.range a, f j + ∑ k ∈ Finset.range b, f (a + k) := by
  subst h; exact Finset.sum_range_add f a b

/-- `A x = Ad x + E (corn (x[mask]))`. -/
theorem cyclic_apply {n l u : ℕ} (h : l + u ≤ n) (ab : Arr2 K) (hm : ab.m = l + u + 1) (hn : ab.n = n)
    {c : ℕ → ℕ → K} (hc : cornMat l u n ab = .ok c) (x : ℕ → V) {i : ℕ} (hi : i < n) :
    ∑ j ∈ Finset.range n, cyclicMat n l u ab.get i j • x j =
      ∑ j ∈ Finset.range n, bandMat l u ab.get i j • x j +
      ∑ a ∈ Finset.range (l + u), bbMat K l u n i a •
        ∑ k ∈ Finset.range (l + u), c a k • x ((maskList l u n).getD k 0) := by
  obtain ⟨c', hc', c1, c2, c3, c4⟩ := cornMat_spec ab hm hn h
  rw [hc] at hc'; cases hc'
  have e1 : ∀ j ∈ Finset.range n, cyclicMat n l u ab.get i j • x j =
      bandMat l u ab.get i j • x j +
        ((if i < l ∧ n - l + i ≤ j then ab.get (n + i + u - j) j else 0) • x j +
        (if n - u + j ≤ i ∧ j < u then ab.get (i + u - n - j) j else 0) • x j) := by
    intro j hj
    rw [Finset.mem_range] at hj
    rw [cyclicMat_eq h ab.get hi hj, add_smul, add_smul, add_assoc]
  rw [Finset.sum_congr rfl e1, Finset.sum_add_distrib, Finset.sum_add_distrib]
  congr 1
  -- the inner product with the corner rows
  have erow : ∀ a, ∑ k ∈ Finset.range (l + u), c a k • x ((maskList l u n).getD k 0) =
      ∑ k ∈ Finset.range u, c a k • x k + ∑ k ∈ Finset.range l, c a (u + k) • x (n - l + k) := by
    intro a
    rw [add_comm l u, Finset.sum_range_add]
    congr 1
    · refine Finset.sum_congr rfl fun k hk => ?_
      rw [Finset.mem_range] at hk
      rw [sel_lo h hk]
    · refine Finset.sum_congr rfl fun k hk => ?_
      rw [Finset.mem_range] at hk
      rw [sel_hi h hk]
  have elow : ∑ j ∈ Finset.range n, (if i < l ∧ n - l + i ≤ j then ab.get (n + i + u - j) j else 0) • x j =
      if i < l then ∑ k ∈ Finset.range l, c i (u + k) • x (n - l + k) else 0 := by
    by_cases hil : i < l
    · rw [if_pos hil]
      rw [sum_range_split _ (show (n - l) + l = n by omega), Finset.sum_eq_zero (fun j hj => ?_), zero_add]
      · refine Finset.sum_congr rfl fun k hk => ?_
        rw [Finset.mem_range] at hk
        rw [c2 i hil k hk]
        by_cases hik : i ≤ k
        · rw [if_pos (by omega), if_pos hik]
          congr 2; omega
        · rw [if_neg (by omega), if_neg hik]
      · rw [Finset.mem_range] at hj
        rw [if_neg (by omega), zero_smul]
    · rw [if_neg hil]
      exact Finset.sum_eq_zero fun j _ => by rw [if_neg (by omega), zero_smul]
  have eup : ∑ j ∈ Finset.range n, (if n - u + j ≤ i ∧ j < u then ab.get (i + u - n - j) j else 0) • x j =
      if n - u ≤ i then ∑ k ∈ Finset.range u, c (l + (i - (n - u))) k • x k else 0 := by
    by_cases hiu : n - u ≤ i
    · rw [if_pos hiu]
      rw [sum_range_split _ (show u + (n - u) = n by omega), add_comm, Finset.sum_eq_zero (fun j hj => ?_), zero_add]
      · refine Finset.sum_congr rfl fun k hk => ?_
        rw [Finset.mem_range] at hk
        rw [c3 _ (by omega) k hk]
        by_cases hik : k ≤ i - (n - u)
        · rw [if_pos (by omega), if_pos hik]
          congr 2; omega
        · rw [if_neg (by omega), if_neg hik]
      · rw [if_neg (by omega), zero_smul]
    · rw [if_neg hiu]
      exact Finset.sum_eq_zero fun j _ => by rw [if_neg (by omega), zero_smul]
  rw [elow, eup]
  by_cases hil : i < l
  · rw [if_pos hil, if_neg (by omega), add_zero]
    symm
    rw [Finset.sum_eq_single i]
    · rw [erow, Finset.sum_eq_zero (s := Finset.range u), zero_add]
      · simp [bbMat, hil]
      · intro k hk
        rw [Finset.mem_range] at hk
        rw [c1 i hil k hk, zero_smul]
    · intro a ha hai
      rw [Finset.mem_range] at ha
      unfold bbMat
      by_cases hal : a < l
      · rw [if_pos ⟨hil, hal⟩, if_neg (Ne.symm hai), zero_smul]
      · rw [if_neg (by omega), if_neg (by omega), zero_smul]
    · intro hni; exact absurd (Finset.mem_range.mpr (by omega)) hni
  · rw [if_neg hil, zero_add]
    by_cases hiu : n - u ≤ i
    · have hu : u ≠ 0 := by omega
      rw [if_pos hiu]
      symm
      rw [Finset.sum_eq_single (l + (i - (n - u)))]
      · rw [erow, Finset.sum_eq_zero (s := Finset.range l), add_zero]
        · simp [bbMat, hil, hu, hiu]
        · intro k hk
          rw [Finset.mem_range] at hk
          rw [c4 _ (by omega) k hk, zero_smul]
      · intro a ha hai
        rw [Finset.mem_range] at ha
        unfold bbMat
        rw [if_neg (by omega)]
        by_cases hal : l ≤ a
        · rw [if_pos ⟨hu, hiu, hal⟩, if_neg (by omega), zero_smul]
        · rw [if_neg (by omega), zero_smul]
      · intro hni; exact absurd (Finset.mem_range.mpr (by omega)) hni
    · rw [if_neg hiu]
      symm
      refine Finset.sum_eq_zero fun a _ => ?_
      unfold bbMat
      rw [if_neg (by omega), if_neg (by omega), zero_smul]

end Npplus
