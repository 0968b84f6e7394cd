import Verif.Props.BasicSpanl

/-!
# C130: reversing, refining, rescaling and zone-centring the grids of `span` and `spanl`
-/

set_option linter.unusedSectionVars false

namespace Npplus
open Spec Basic Finset

variable {K : Type} [Field K] [CharZero K]

namespace SpanAux

theorem num_ne {n : ℕ} (hn : 2 ≤ n) : ((n : K) - 1) ≠ 0 := by
  have : ((n - 1 : ℕ) : K) ≠ 0 := Nat.cast_ne_zero.mpr (by omega)
  rwa [Nat.cast_sub (by omega), Nat.cast_one] at this

theorem values {start stop r : NdArr K} {sh : List ℕ} (h : Common [start.shape, stop.shape] sh) {num : ℕ} (hn : 2 ≤ num)
    {axis : ℤ} {k : ℕ} (hax : IsAxis (sh.length + 1) axis k) (hr : span start stop num axis = .ok r) :
    r.shape = sh.insertIdx k num ∧ ∀ idx, ValidIdx sh idx → ∀ i < num,
      r.get (idx.insertIdx k i) = bget start idx + (i / (num - 1)) * (bget stop idx - bget start idx) := by
  obtain ⟨q, h1, h2, h3⟩ := C57_values h hn (num_ne hn) hax
  rw [hr] at h1; cases h1
  exact ⟨h2, h3⟩

theorem valuesl {start stop r : NdArr ℝ} {sh : List ℕ} (h : Common [start.shape, stop.shape] sh) {num : ℕ} (hn : 2 ≤ num)
    {axis : ℤ} {k : ℕ} (hax : IsAxis (sh.length + 1) axis k) (hd : axis = 0 ∨ start.shape.length = sh.length)
    (hpos : ∀ idx, ValidIdx sh idx → 0 < bget start idx * bget stop idx) (hr : spanl start stop num axis = .ok r) :
    r.shape = sh.insertIdx k num ∧ ∀ idx, ValidIdx sh idx → ∀ i < num,
      r.get (idx.insertIdx k i) = bget start idx * (bget stop idx / bget start idx) ^ ((i : ℝ) / (num - 1)) := by
  obtain ⟨q, h1, h2, h3⟩ := C58_spanl h hn hax hd hpos
  rw [hr] at h1; cases h1
  exact ⟨h2, fun idx hv i hi => ((h3 idx hv).2.2.1 i hi).1⟩

end SpanAux

open SpanAux

/-- **C130** `span(stop, start, n)` is `span(start, stop, n)` in the opposite order. -/
theorem C130_span_reverse {start stop r r' : NdArr K} {sh : List ℕ} (h : Common [start.shape, stop.shape] sh)
    {num : ℕ} (hn : 2 ≤ num) {axis : ℤ} {k : ℕ} (hax : IsAxis (sh.length + 1) axis k)
    (hr : span start stop num axis = .ok r) (hr' : span stop start num axis = .ok r') :
    r'.shape = r.shape ∧ ∀ idx, ValidIdx sh idx → ∀ i < num,
      r'.get (idx.insertIdx k (num - 1 - i)) = r.get (idx.insertIdx k i) := by
  obtain ⟨a1, a2⟩ := values h hn hax hr
  obtain ⟨b1, b2⟩ := values (h.perm (List.Perm.swap _ _ _)) hn hax hr'
  refine ⟨by rw [a1, b1], fun idx hv i hi => ?_⟩
  rw [a2 idx hv i hi, b2 idx hv _ (by omega)]
  have hne := num_ne (K := K) hn
  rw [Nat.cast_sub (by omega), Nat.cast_sub (by omega), Nat.cast_one]
  field_simp; ring

/-- **C130** Every `m`-th point of the grid with `m` times as many intervals is the coarse grid. -/
theorem C130_span_refine {start stop r r' : NdArr K} {sh : List ℕ} (h : Common [start.shape, stop.shape] sh)
    {num m : ℕ} (hn : 2 ≤ num) (hm : 1 ≤ m) {axis : ℤ} {k : ℕ} (hax : IsAxis (sh.length + 1) axis k)
    (hr : span start stop num axis = .ok r) (hr' : span start stop ((m * (num - 1) + 1 : ℕ) : ℤ) axis = .ok r') :
    ∀ idx, ValidIdx sh idx → ∀ i < num, r'.get (idx.insertIdx k (m * i)) = r.get (idx.insertIdx k i) := by
  have hmul : 1 ≤ m * (num - 1) := Nat.mul_pos hm (by omega)
  obtain ⟨a1, a2⟩ := values h hn hax hr
  obtain ⟨b1, b2⟩ := values h (num := m * (num - 1) + 1) (by omega) hax hr'
  intro idx hv i hi
  have hle : m * i ≤ m * (num - 1) := Nat.mul_le_mul_left m (by omega)
  rw [a2 idx hv i hi, b2 idx hv _ (by omega)]
  have hne := num_ne (K := K) hn
  have hm0 : (m : K) ≠ 0 := Nat.cast_ne_zero.mpr (by omega)
  push_cast
  rw [Nat.cast_sub (by omega), Nat.cast_one, add_sub_cancel_right, mul_div_mul_left _ _ hm0]

/-- **C130** Rescaling: the grid between `a*start+b` and `a*stop+b` is `a` times the grid plus `b`. -/
theorem C130_span_affine {start stop r r' : NdArr K} {sh : List ℕ} (h : Common [start.shape, stop.shape] sh)
    {num : ℕ} (hn : 2 ≤ num) {axis : ℤ} {k : ℕ} (hax : IsAxis (sh.length + 1) axis k) (a b : K)
    (hr : span start stop num axis = .ok r)
    (hr' : span (start.map fun t => a * t + b) (stop.map fun t => a * t + b) num axis = .ok r') :
    r'.shape = r.shape ∧ ∀ idx, ValidIdx sh idx → ∀ i < num,
      r'.get (idx.insertIdx k i) = a * r.get (idx.insertIdx k i) + b := by
  obtain ⟨a1, a2⟩ := values h hn hax hr
  obtain ⟨b1, b2⟩ := values (start := start.map fun t => a * t + b) (stop := stop.map fun t => a * t + b) h hn hax hr'
  refine ⟨by rw [a1, b1], fun idx hv i hi => ?_⟩
  rw [a2 idx hv i hi, b2 idx hv i hi]
  show (a * bget start idx + b) + _ * ((a * bget stop idx + b) - (a * bget start idx + b)) = _
  ring

/-- **C130** Zone centres: `zcen` of the grid along its axis gives the odd points of the grid with twice as
many intervals. -/
theorem C130_span_zcen {start stop r r' : NdArr K} {sh : List ℕ} (h : Common [start.shape, stop.shape] sh)
    {num : ℕ} (hn : 2 ≤ num) {axis axis' : ℤ} {k : ℕ} (hax : IsAxis (sh.length + 1) axis k)
    (hax' : IsAxis (sh.length + 1) axis' k)
    (hr : span start stop num axis = .ok r) (hr' : span start stop ((2 * (num - 1) + 1 : ℕ) : ℤ) axis = .ok r') :
    ∃ z, zcen r axis' = .ok z ∧ z.shape = sh.insertIdx k (num - 1) ∧ ∀ idx, ValidIdx sh idx → ∀ i < num - 1,
      z.get (idx.insertIdx k i) = r'.get (idx.insertIdx k (2 * i + 1)) := by
  obtain ⟨a1, a2⟩ := values h hn hax hr
  obtain ⟨b1, b2⟩ := values h (num := 2 * (num - 1) + 1) (by omega) hax hr'
  have hk : k ≤ sh.length := by have := hax.1; omega
  have hrs : IsAxis r.shape.length axis' k := by rw [a1, length_insert hk]; exact hax'
  have hg : r.shape.getD k 0 = num := by rw [a1, getD_insert_self hk]
  obtain ⟨z, z1, z2, z3⟩ := (C65_zcen r hrs).2 (by omega)
  have zs : z.shape = sh.insertIdx k (num - 1) := by rw [z2, hg, a1, set_insert hk]
  refine ⟨z, z1, zs, fun idx hv i hi => ?_⟩
  have hki : k ≤ idx.length := by rw [hv.1]; exact hk
  rw [z3 _ (by rw [zs, valid_insert hk hv.1]; exact ⟨hv, hi⟩), getD_insert_self hki, set_insert hki,
    a2 idx hv i (by omega), a2 idx hv (i + 1) (by omega), b2 idx hv (2 * i + 1) (by omega)]
  have hne := num_ne (K := K) hn
  push_cast
  rw [Nat.cast_sub (by omega), Nat.cast_one, add_sub_cancel_right]
  field_simp; ring

/-- **C130** `spanl(stop, start, n)` is `spanl(start, stop, n)` in the opposite order. -/
theorem C130_spanl_reverse {start stop r r' : NdArr ℝ} {sh : List ℕ} (h : Common [start.shape, stop.shape] sh)
    {num : ℕ} (hn : 2 ≤ num) {axis : ℤ} {k : ℕ} (hax : IsAxis (sh.length + 1) axis k)
    (hd : axis = 0 ∨ (start.shape.length = sh.length ∧ stop.shape.length = sh.length))
    (hpos : ∀ idx, ValidIdx sh idx → 0 < bget start idx * bget stop idx)
    (hr : spanl start stop num axis = .ok r) (hr' : spanl stop start num axis = .ok r') :
    r'.shape = r.shape ∧ ∀ idx, ValidIdx sh idx → ∀ i < num,
      r'.get (idx.insertIdx k (num - 1 - i)) = r.get (idx.insertIdx k i) := by
  obtain ⟨a1, a2⟩ := valuesl h hn hax (hd.imp id And.left) hpos hr
  obtain ⟨b1, b2⟩ := valuesl (h.perm (List.Perm.swap _ _ _)) hn hax (hd.imp id And.right)
    (fun idx hv => by rw [mul_comm]; exact hpos idx hv) hr'
  refine ⟨by rw [a1, b1], fun idx hv i hi => ?_⟩
  rw [a2 idx hv i hi, b2 idx hv _ (by omega)]
  have hp := hpos idx hv
  set s := bget start idx
  set t := bget stop idx
  have hs0 : s ≠ 0 := fun h0 => by rw [h0] at hp; simp at hp
  have ht0 : t ≠ 0 := fun h0 => by rw [h0] at hp; simp at hp
  have hq : 0 < t / s := by
    rw [show t / s = s * t / (s * s) by field_simp]
    exact div_pos hp (mul_self_pos.mpr hs0)
  have hne := num_ne (K := ℝ) hn
  rw [Nat.cast_sub (by omega), Nat.cast_sub (by omega), Nat.cast_one,
    show ((num : ℝ) - 1 - i) / (num - 1) = 1 - (i : ℝ) / (num - 1) by field_simp,
    show s / t = (t / s)⁻¹ by rw [inv_div], Real.inv_rpow hq.le, Real.rpow_sub hq, Real.rpow_one, inv_div,
    mul_div_assoc']
  field_simp

/-- **C130** Every `m`-th point of the logarithmic grid with `m` times as many intervals is the coarse grid. -/
theorem C130_spanl_refine {start stop r r' : NdArr ℝ} {sh : List ℕ} (h : Common [start.shape, stop.shape] sh)
    {num m : ℕ} (hn : 2 ≤ num) (hm : 1 ≤ m) {axis : ℤ} {k : ℕ} (hax : IsAxis (sh.length + 1) axis k)
    (hd : axis = 0 ∨ start.shape.length = sh.length)
    (hpos : ∀ idx, ValidIdx sh idx → 0 < bget start idx * bget stop idx)
    (hr : spanl start stop num axis = .ok r) (hr' : spanl start stop ((m * (num - 1) + 1 : ℕ) : ℤ) axis = .ok r') :
    ∀ idx, ValidIdx sh idx → ∀ i < num, r'.get (idx.insertIdx k (m * i)) = r.get (idx.insertIdx k i) := by
  have hmul : 1 ≤ m * (num - 1) := Nat.mul_pos hm (by omega)
  obtain ⟨a1, a2⟩ := valuesl h hn hax hd hpos hr
  obtain ⟨b1, b2⟩ := valuesl h (num := m * (num - 1) + 1) (by omega) hax hd hpos hr'
  intro idx hv i hi
  have hle : m * i ≤ m * (num - 1) := Nat.mul_le_mul_left m (by omega)
  rw [a2 idx hv i hi, b2 idx hv _ (by omega)]
  have hm0 : (m : ℝ) ≠ 0 := Nat.cast_ne_zero.mpr (by omega)
  push_cast
  rw [Nat.cast_sub (by omega), Nat.cast_one, add_sub_cancel_right, mul_div_mul_left _ _ hm0]

/-- The hypotheses are met: a scalar `start`, three different `stop`s, five points along the last axis. -/
example (a : ℚ) (f : List ℕ → ℚ) : ∃ r r' : NdArr ℚ, span ⟨[], fun _ => a⟩ ⟨[3], f⟩ (5 : ℕ) (-1) = .ok r ∧
    span ⟨[3], f⟩ ⟨[], fun _ => a⟩ (5 : ℕ) (-1) = .ok r' ∧
    r'.get ([2].insertIdx 1 4) = r.get ([2].insertIdx 1 0) := by
  have hc : Common [[], [3]] [3] := bcastShape_ok (by simp [bcastShape, bcastRev])
  have hax : IsAxis (([3] : List ℕ).length + 1) (-1) 1 := ⟨by simp, .inr (by simp)⟩
  obtain ⟨r, h1, -⟩ := C57_values (start := (⟨[], fun _ => a⟩ : NdArr ℚ)) (stop := ⟨[3], f⟩) hc (num := 5) (by omega) (by norm_num) hax
  obtain ⟨r', h2, -⟩ := C57_values (start := (⟨[3], f⟩ : NdArr ℚ)) (stop := ⟨[], fun _ => a⟩) (hc.perm (List.Perm.swap _ _ _)) (num := 5) (by omega) (by norm_num) hax
  exact ⟨r, r', h1, h2, (C130_span_reverse (start := (⟨[], fun _ => a⟩ : NdArr ℚ)) (stop := ⟨[3], f⟩) hc (by omega) hax h1 h2).2 [2] (by
    refine ⟨rfl, fun j hj => ?_⟩
    have : j = 0 := by simpa using hj
    subst this; decide) 0 (by omega)⟩

end Npplus
