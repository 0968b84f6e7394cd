import Verif.Props.BasicSpan

/-!
# C57, C58: instances of `span`; `spanl`
-/

set_option linter.unusedSectionVars false

namespace Npplus
open Spec Basic Finset

/-! ### instances of `span` -/

/-- From the point `(0, 10)` to `(4, 4)` in five steps along a last new axis. -/
example : ((span (⟨[2], fun i => 10 * (i.getD 0 0 : ℚ)⟩) ⟨[], fun _ => 4⟩ 5 (-1)).map fun r =>
    (r.shape, [r.get [0, 0], r.get [0, 1], r.get [0, 4], r.get [1, 0], r.get [1, 1], r.get [1, 4]])) =
    .ok ([2, 5], [0, 1, 4, 10, 17/2, 4]) := by decide +kernel

example : Common [[2], []] [2] ∧ IsAxis ([2].length + 1) (-1) 1 :=
  ⟨bcastShape_ok (by decide), by decide, by decide⟩

/-! ### `spanl` -/

theorem rdim_cons {s : List ℕ} {v j : ℕ} (h : j < s.length) : rdim (v :: s) j = rdim s j := by
  rw [rdim_of_lt (by simp; omega), rdim_of_lt h, List.length_cons]
  rw [show s.length + 1 - 1 - j = (s.length - 1 - j) + 1 by omega, List.getD_cons_succ]

theorem common_cons {s sh : List ℕ} {v : ℕ} (hl : s.length ≤ sh.length) (hf : ∀ j, rdim s j = rdim sh j ∨ rdim s j = 1) :
    Common [s, v :: sh] (v :: sh) := by
  refine ⟨?_, ⟨_, by simp, rfl⟩, ?_, fun j => ⟨_, by simp, rfl⟩⟩
  · simp; omega
  · intro t ht j
    simp only [List.mem_cons, List.not_mem_nil, or_false] at ht
    rcases ht with rfl | rfl
    · rcases Nat.lt_or_ge j sh.length with h | h
      · rw [rdim_cons h]; exact hf j
      · exact .inr (rdim_of_ge (by omega))
    · exact .inl rfl

theorem bcIdx_cons {s idx : List ℕ} {i : ℕ} (h : s.length ≤ idx.length) : bcIdx s (i :: idx) = bcIdx s idx := by
  unfold bcIdx
  rw [List.length_cons, show idx.length + 1 - s.length = (idx.length - s.length) + 1 by omega, List.drop_succ_cons]

theorem mul_pos_neg_left {a b : ℝ} (h : a < 0) : 0 < a * b ↔ b < 0 :=
  ⟨fun hab => by by_contra hc; nlinarith, fun hb => mul_pos_of_neg_of_neg h hb⟩

theorem sign_mul_pos {a b : ℝ} : 0 < ((SignType.sign a : ℤ) : ℝ) * b ↔ 0 < a * b := by
  rcases lt_trichotomy a 0 with h | h | h
  · rw [sign_neg h]
    simp only [SignType.coe_neg_one, Int.cast_neg, Int.cast_one, neg_mul, one_mul]
    rw [mul_pos_neg_left h]
    constructor <;> intro <;> linarith
  · subst h; simp
  · rw [sign_pos h]
    simp only [SignType.coe_one, Int.cast_one, one_mul]
    rw [mul_pos_iff_of_pos_left h]

theorem sign_mul_abs' (a : ℝ) : ((SignType.sign a : ℤ) : ℝ) * |a| = a := by
  rcases lt_trichotomy a 0 with h | h | h
  · rw [sign_neg h, abs_of_neg h]; simp
  · subst h; simp
  · rw [sign_pos h, abs_of_pos h]; simp

theorem sign_mul_eq_abs {a b : ℝ} (h : 0 < a * b) : ((SignType.sign a : ℤ) : ℝ) * b = |b| := by
  rcases lt_trichotomy a 0 with ha | ha | ha
  · have : b < 0 := (mul_pos_neg_left ha).mp h
    rw [sign_neg ha, abs_of_neg this]; simp
  · subst ha; simp at h
  · have : 0 < b := (mul_pos_iff_of_pos_left ha).mp h
    rw [sign_pos ha, abs_of_pos this]; simp

theorem spanl_core {start stop : NdArr ℝ} {sh : List ℕ} (h : Common [start.shape, stop.shape] sh) {num : ℕ} (hn : 1 ≤ num)
    {axis : ℤ} {k : ℕ} (hax : IsAxis (sh.length + 1) axis k) (hd : axis = 0 ∨ start.shape.length = sh.length)
    (hpos : ∀ idx, ValidIdx sh idx → 0 < bget start idx * bget stop idx) :
    ∃ r, spanl start stop num axis = .ok r ∧ r.shape = sh.insertIdx k num ∧ ∀ idx, ValidIdx sh idx → ∀ i < num,
      r.get (idx.insertIdx k i) = ((SignType.sign (bget start idx) : ℤ) : ℝ) * Real.exp (if i + 1 = num then Real.log |bget stop idx| else
        Real.log |bget start idx| + i * ((Real.log |bget stop idx| - Real.log |bget start idx|) / ((num : ℝ) - 1))) := by
  obtain ⟨hk1, hax'⟩ := hax
  have hk : k ≤ sh.length := by omega
  have hsl := h.len start.shape (by simp)
  have hsf := h.fits start.shape (by simp)
  have hz := NdArr.zip_ok_of (a := start.map fun t => ((SignType.sign t : ℤ) : ℝ)) (b := stop) (f := (· * ·)) h
  have hcl : Common [((start.map abs).map Real.log).shape, ((⟨sh, fun idx => bget (start.map fun t => ((SignType.sign t : ℤ) : ℝ)) idx *
      bget stop idx⟩ : NdArr ℝ).map Real.log).shape] sh := common_left h
  -- the axis passed to span
  have ha : (if axis < 0 then axis + ((start.map fun t => ((SignType.sign t : ℤ) : ℝ)).shape.length : ℤ) + 1 else axis) = k := by
    show (if axis < 0 then axis + (start.shape.length : ℤ) + 1 else axis) = k
    rcases hd with hd | hd
    · rw [if_neg (by omega)]; omega
    · rw [hd]; split <;> omega
  obtain ⟨r, r1, r2, r3⟩ := span_core hcl (num := (num : ℤ)) (by omega) (axis := (k : ℤ)) (k := k) ⟨by omega, .inl rfl⟩
  have hval : ∀ idx, ValidIdx sh idx → ∀ i < num, (r.map Real.exp).get (idx.insertIdx k i) =
      Real.exp (if i + 1 = num then Real.log |bget stop idx| else
        Real.log |bget start idx| + i * ((Real.log |bget stop idx| - Real.log |bget start idx|) / ((num : ℝ) - 1))) := by
    intro idx hv i hi
    show Real.exp (r.get _) = _
    congr 1
    have hst : bget ((⟨sh, fun idx => bget (start.map fun t => ((SignType.sign t : ℤ) : ℝ)) idx * bget stop idx⟩ : NdArr ℝ).map Real.log) idx =
        Real.log |bget stop idx| := by
      rw [bget_self (a := NdArr.map Real.log ⟨sh, _⟩) hv]
      show Real.log (((SignType.sign (bget start idx) : ℤ) : ℝ) * bget stop idx) = _
      rw [sign_mul_eq_abs (hpos idx hv)]
    have hsa : bget ((start.map abs).map Real.log) idx = Real.log |bget start idx| := rfl
    rw [r3 idx hv i (by omega), hst, hsa]
    by_cases hl : i + 1 = num
    · rw [if_pos hl, if_pos (by omega)]
    · rw [if_neg hl, if_neg (by omega)]; push_cast; rfl
  have hun : ∀ q, NdArr.zip (· * ·) (if axis = 0 then start.map (fun t => ((SignType.sign t : ℤ) : ℝ)) else
      (start.map fun t => ((SignType.sign t : ℤ) : ℝ)).newAxis k) (r.map Real.exp) = .ok q → spanl start stop num axis = .ok q := by
    intro q hq
    unfold spanl
    simp only [bind, Except.bind, pure, Except.pure, throw, throwThe, MonadExceptOf.throw]
    rw [hz]; simp only
    rw [if_neg]
    swap
    · rintro ⟨idx, hv, hle⟩
      have := hpos idx hv
      rw [← sign_mul_pos] at this
      exact absurd hle (not_le.mpr this)
    try simp only
    rw [if_neg (by rw [ha]; omega)]
    try simp only
    rw [ha, r1]
    try simp only
    have : min ((k : ℤ)).toNat (start.map fun t => ((SignType.sign t : ℤ) : ℝ)).shape.length = k ∨ axis = 0 := by
      rcases hd with hd | hd
      · exact .inr hd
      · left
        show min ((k : ℤ)).toNat start.shape.length = k
        rw [hd]; omega
    rcases this with h | h
    · rw [h]; exact hq
    · rw [if_pos h] at hq ⊢; exact hq
  simp only [Int.toNat_natCast] at r2
  rcases hd with hd | hd
  · have hk0 : k = 0 := by omega
    subst hk0
    rw [if_pos hd] at hun
    refine ⟨_, hun _ (NdArr.zip_ok_of (sh := sh.insertIdx 0 num) ?_), rfl, fun idx hv i hi => ?_⟩
    · show Common [start.shape, r.shape] _
      rw [r2]; exact common_cons hsl hsf
    · show bget (start.map fun t => ((SignType.sign t : ℤ) : ℝ)) _ * bget (r.map Real.exp) _ = _
      have hv' : ValidIdx (r.map Real.exp).shape (idx.insertIdx 0 i) := by
        show ValidIdx r.shape _
        rw [r2, valid_insert hk hv.1]; exact ⟨hv, hi⟩
      rw [bget_self hv', hval idx hv i hi]
      congr 1
      show ((SignType.sign (start.get (bcIdx start.shape (i :: idx))) : ℤ) : ℝ) = _
      rw [bcIdx_cons (by rw [hv.1]; exact hsl)]; rfl
  · by_cases h0 : axis = 0
    · have hk0 : k = 0 := by omega
      subst hk0
      rw [if_pos h0] at hun
      refine ⟨_, hun _ (NdArr.zip_ok_of (sh := sh.insertIdx 0 num) ?_), rfl, fun idx hv i hi => ?_⟩
      · show Common [start.shape, r.shape] _
        rw [r2]; exact common_cons hsl hsf
      · show bget (start.map fun t => ((SignType.sign t : ℤ) : ℝ)) _ * bget (r.map Real.exp) _ = _
        have hv' : ValidIdx (r.map Real.exp).shape (idx.insertIdx 0 i) := by
          show ValidIdx r.shape _
          rw [r2, valid_insert hk hv.1]; exact ⟨hv, hi⟩
        rw [bget_self hv', hval idx hv i hi]
        congr 1
        show ((SignType.sign (start.get (bcIdx start.shape (i :: idx))) : ℤ) : ℝ) = _
        rw [bcIdx_cons (by rw [hv.1]; exact hsl)]; rfl
    · rw [if_neg h0] at hun
      refine ⟨_, hun _ (NdArr.zip_ok_of (sh := sh.insertIdx k num) ?_), rfl, fun idx hv i hi => ?_⟩
      · show Common [start.shape.insertIdx k 1, r.shape] _
        rw [r2]; exact common_insert hk hd hsf
      · show bget (NdArr.newAxis k (start.map fun t => ((SignType.sign t : ℤ) : ℝ))) _ * bget (r.map Real.exp) _ = _
        have hv' : ValidIdx (r.map Real.exp).shape (idx.insertIdx k i) := by
          show ValidIdx r.shape _
          rw [r2, valid_insert hk hv.1]; exact ⟨hv, hi⟩
        rw [bget_self hv', hval idx hv i hi]
        congr 1
        show ((SignType.sign (start.get ((bcIdx (start.shape.insertIdx k 1) (idx.insertIdx k i)).eraseIdx k)) : ℤ) : ℝ) = _
        rw [bcIdx_insert (by omega) (by rw [hv.1, hd]), List.eraseIdx_insertIdx_self]; rfl

/-- **C58** — `spanl(start, stop, num, axis)` with `num ≥ 2` and `start`, `stop` nonzero of the same sign everywhere: the
new axis is at the requested position, the first value is `start`, the last `stop`, and every value is
`start * (stop/start)^(i/(num-1))`, so successive ratios are equal and all values have the sign of `start`.  `start` must
have as many axes as the result of `start+stop`, or the new axis must be the first (see `C58_axis_wrong`). -/
theorem C58_spanl {start stop : NdArr ℝ} {sh : List ℕ} (h : Common [start.shape, stop.shape] sh) {num : ℕ} (hn : 2 ≤ num)
    {axis : ℤ} {k : ℕ} (hax : IsAxis (sh.length + 1) axis k) (hd : axis = 0 ∨ start.shape.length = sh.length)
    (hpos : ∀ idx, ValidIdx sh idx → 0 < bget start idx * bget stop idx) :
    ∃ r, spanl start stop num axis = .ok r ∧ r.shape = sh.insertIdx k num ∧ ∀ idx, ValidIdx sh idx →
      r.get (idx.insertIdx k 0) = bget start idx ∧ r.get (idx.insertIdx k (num - 1)) = bget stop idx ∧
      (∀ i < num, r.get (idx.insertIdx k i) = bget start idx * (bget stop idx / bget start idx) ^ ((i : ℝ) / (num - 1)) ∧
        0 < r.get (idx.insertIdx k i) * bget start idx) ∧
      ∀ i, i + 1 < num → r.get (idx.insertIdx k (i + 1)) / r.get (idx.insertIdx k i) =
        (bget stop idx / bget start idx) ^ (1 / ((num : ℝ) - 1)) := by
  obtain ⟨r, h1, h2, h3⟩ := spanl_core h (num := num) (by omega) hax hd hpos
  have hn1 : (num : ℝ) - 1 ≠ 0 := by
    have : (2 : ℝ) ≤ num := by exact_mod_cast hn
    linarith
  refine ⟨r, h1, h2, fun idx hv => ?_⟩
  have hp := hpos idx hv
  have hs0 : bget start idx ≠ 0 := fun h0 => by rw [h0] at hp; simp at hp
  have ht0 : bget stop idx ≠ 0 := fun h0 => by rw [h0] at hp; simp at hp
  have hq : 0 < bget stop idx / bget start idx := by
    have : bget stop idx / bget start idx = bget start idx * bget stop idx / (bget start idx) ^ 2 := by field_simp
    rw [this]; positivity
  have hval : ∀ i < num, r.get (idx.insertIdx k i) = bget start idx * (bget stop idx / bget start idx) ^ ((i : ℝ) / (num - 1)) := by
    intro i hi
    rw [h3 idx hv i hi]
    have e : (if i + 1 = num then Real.log |bget stop idx| else
        Real.log |bget start idx| + i * ((Real.log |bget stop idx| - Real.log |bget start idx|) / ((num : ℝ) - 1))) =
        Real.log |bget start idx| + Real.log (bget stop idx / bget start idx) * ((i : ℝ) / (num - 1)) := by
      rw [Real.log_div ht0 hs0, Real.log_abs, Real.log_abs]
      split
      next hl =>
        have : (i : ℝ) = num - 1 := by rw [← hl]; push_cast; ring
        rw [this, div_self hn1]; ring
      next => field_simp
    rw [e, Real.exp_add, Real.exp_log (abs_pos.mpr hs0), Real.rpow_def_of_pos hq, ← mul_assoc, sign_mul_abs']
  refine ⟨?_, ?_, fun i hi => ⟨hval i hi, ?_⟩, fun i hi => ?_⟩
  · rw [hval 0 (by omega)]; simp
  · rw [hval (num - 1) (by omega)]
    have : ((num - 1 : ℕ) : ℝ) = num - 1 := by rw [Nat.cast_sub (by omega)]; simp
    rw [this, div_self hn1, Real.rpow_one, mul_div_cancel₀ _ hs0]
  · rw [hval i hi, mul_right_comm]
    exact mul_pos (mul_self_pos.mpr hs0) (Real.rpow_pos_of_pos hq _)
  · rw [hval (i + 1) hi, hval i (by omega), mul_div_mul_left _ _ hs0, ← Real.rpow_sub hq]
    congr 1
    push_cast
    ring

/-- **C58** — if anywhere `start` and `stop` have different signs, or one is zero, ValueError. -/
theorem C58_sign_error {start stop : NdArr ℝ} {sh : List ℕ} (h : Common [start.shape, stop.shape] sh) (num axis : ℤ)
    (hbad : ∃ idx, ValidIdx sh idx ∧ (bget start idx = 0 ∨ bget stop idx = 0 ∨ bget start idx * bget stop idx < 0)) :
    spanl start stop num axis = .error .valueError := by
  have hz := NdArr.zip_ok_of (a := start.map fun t => ((SignType.sign t : ℤ) : ℝ)) (b := stop) (f := (· * ·)) h
  unfold spanl
  simp only [bind, Except.bind, pure, Except.pure, throw, throwThe, MonadExceptOf.throw]
  rw [hz]; simp only
  rw [if_pos]
  obtain ⟨idx, hv, hb⟩ := hbad
  refine ⟨idx, hv, ?_⟩
  show ((SignType.sign (bget start idx) : ℤ) : ℝ) * bget stop idx ≤ 0
  by_contra hc
  have := sign_mul_pos.mp (not_le.mp hc)
  rcases hb with h | h | h
  · rw [h] at this; simp at this
  · rw [h] at this; simp at this
  · linarith

/-- **C58, finding** — a scalar `start` with a vector `stop` and `axis=-1`: `span` puts the new axis last, `spanl` first. -/
theorem C58_axis_wrong (c : ℝ) (hc : 0 < c) (stop : NdArr ℝ) (n : ℕ) (hs : stop.shape = [n])
    (hpos : ∀ idx, ValidIdx [n] idx → 0 < bget stop idx) (num : ℕ) (hn : 2 ≤ num) :
    ∃ r r', spanl ⟨[], fun _ => c⟩ stop num (-1) = .ok r ∧ r.shape = [num, n] ∧
      span ⟨[], fun _ => c⟩ stop num (-1) = .ok r' ∧ r'.shape = [n, num] := by
  have hcm : Common [[], stop.shape] [n] := by rw [hs]; exact bcastShape_ok (by simp [bcastShape, bcastRev])
  obtain ⟨r', h1, h2, -⟩ := span_core (start := ⟨[], fun _ => c⟩) hcm (num := (num : ℤ)) (by omega) (axis := -1) (k := 1) ⟨by simp, .inr (by simp)⟩
  have hz := NdArr.zip_ok_of (a := (⟨[], fun _ => c⟩ : NdArr ℝ).map fun t => ((SignType.sign t : ℤ) : ℝ)) (b := stop) (f := (· * ·)) hcm
  have hcl : Common [(((⟨[], fun _ => c⟩ : NdArr ℝ).map abs).map Real.log).shape, ((⟨[n], fun idx => bget ((⟨[], fun _ => c⟩ : NdArr ℝ).map
      fun t => ((SignType.sign t : ℤ) : ℝ)) idx * bget stop idx⟩ : NdArr ℝ).map Real.log).shape] [n] := common_left hcm
  obtain ⟨q, q1, q2, -⟩ := span_core hcl (num := (num : ℤ)) (by omega) (axis := 0) (k := 0) ⟨by simp, .inl rfl⟩
  have hfin := NdArr.zip_ok_of (f := (· * ·)) (sh := [num, n])
    (a := ((⟨[], fun _ => c⟩ : NdArr ℝ).map fun t => ((SignType.sign t : ℤ) : ℝ)).newAxis 0) (b := q.map Real.exp) (by
      show Common [[1], q.shape] _
      rw [q2]
      refine common_cons (by simp) fun j => .inr ?_
      cases j <;> simp [rdim])
  have hun : ∀ x, NdArr.zip (· * ·) (((⟨[], fun _ => c⟩ : NdArr ℝ).map fun t => ((SignType.sign t : ℤ) : ℝ)).newAxis 0) (q.map Real.exp) = x →
      spanl ⟨[], fun _ => c⟩ stop num (-1) = x := by
    rintro x rfl
    unfold spanl
    simp only [bind, Except.bind, pure, Except.pure, throw, throwThe, MonadExceptOf.throw]
    rw [hz]; simp only
    rw [if_neg]
    swap
    · rintro ⟨idx, hv, hle⟩
      have : 0 < bget (⟨[], fun _ => c⟩ : NdArr ℝ) idx * bget stop idx := mul_pos hc (hpos idx hv)
      rw [← sign_mul_pos] at this
      exact absurd hle (not_le.mpr this)
    have ha : (if (-1 : ℤ) < 0 then -1 + (((⟨[], fun _ => c⟩ : NdArr ℝ).map fun t => ((SignType.sign t : ℤ) : ℝ)).shape.length : ℤ) + 1 else -1) = 0 := by
      simp [NdArr.map]
    rw [ha]
    rw [if_neg (show ¬ (0 : ℤ) < 0 by omega)]
    rw [if_neg (show ¬ (-1 : ℤ) = 0 by omega), q1]
    rfl
  exact ⟨_, r', hun _ hfin, rfl, h1, by simpa using h2⟩

/-- The hypotheses of C58 are met, and the values are the geometric ones: `spanl(-1, -100, 3)` is `[-1, -10, -100]`. -/
example : ∃ r, spanl ⟨[], fun _ => -1⟩ ⟨[], fun _ => -100⟩ 3 = .ok r ∧ r.shape = [3] ∧ r.get [0] = -1 ∧ r.get [1] = -10 ∧
    r.get [2] = -100 := by
  obtain ⟨r, h1, h2, h3⟩ := C58_spanl (start := ⟨[], fun _ => -1⟩) (stop := ⟨[], fun _ => -100⟩) (sh := []) (bcastShape_ok (by decide))
    (num := 3) (by norm_num) (axis := 0) (k := 0) ⟨by decide, .inl rfl⟩ (.inl rfl) (fun idx _ => by
      show (0 : ℝ) < -1 * -100
      norm_num)
  obtain ⟨a, b, c, -⟩ := h3 [] ⟨rfl, by simp⟩
  refine ⟨r, h1, h2, a, ?_, b⟩
  rw [show [1] = ([] : List ℕ).insertIdx 0 1 from rfl, (c 1 (by norm_num)).1]
  show (-1 : ℝ) * (-100 / -1) ^ (((1 : ℕ) : ℝ) / ((3 : ℕ) - 1)) = -10
  have : (-100 / -1 : ℝ) = 10 ^ (2 : ℝ) := by norm_num
  rw [this, ← Real.rpow_mul (by norm_num)]
  norm_num

end Npplus
