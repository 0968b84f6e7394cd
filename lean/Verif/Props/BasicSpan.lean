import Verif.Props.BasicAxis
import Mathlib.Analysis.SpecialFunctions.Pow.Real
import Mathlib.Tactic.FieldSimp

/-!
# C57, C58: `span`, `spanl`
-/

set_option linter.unusedSectionVars false

namespace Npplus
open Spec Basic Finset

/-! ### inserting an axis -/

theorem getD_insertIdx {l : List ℕ} {k v j : ℕ} (hk : k ≤ l.length) (d : ℕ) :
    (l.insertIdx k v).getD j d = if j < k then l.getD j d else if j = k then v else l.getD (j - 1) d := by
  simp only [List.getD_eq_getElem?_getD, List.getElem?_insertIdx]
  by_cases h : j < k
  · rw [if_pos h, if_pos h]
  · rw [if_neg h, if_neg h]
    by_cases h' : j = k
    · rw [if_pos h', if_pos h', if_pos (by omega)]; rfl
    · rw [if_neg h', if_neg h']

theorem length_insert {l : List ℕ} {k v : ℕ} (hk : k ≤ l.length) : (l.insertIdx k v).length = l.length + 1 :=
  List.length_insertIdx_of_le_length hk v

theorem getD_insert_self {l : List ℕ} {k v : ℕ} (hk : k ≤ l.length) : (l.insertIdx k v).getD k 0 = v := by
  rw [getD_insertIdx hk]; simp

theorem set_insert {l : List ℕ} {k v w : ℕ} (hk : k ≤ l.length) : (l.insertIdx k v).set k w = l.insertIdx k w := by
  refine ext_getD (by rw [List.length_set, length_insert hk, length_insert hk]) fun j hj => ?_
  rw [List.length_set, length_insert hk] at hj
  by_cases h : j = k
  · subst h; rw [getD_set_self (by rw [length_insert hk]; omega), getD_insert_self hk]
  · rw [getD_set_ne h, getD_insertIdx hk, getD_insertIdx hk, if_neg h, if_neg h]

theorem valid_insert {s idx : List ℕ} {k n i : ℕ} (hk : k ≤ s.length) (hl : idx.length = s.length) :
    ValidIdx (s.insertIdx k n) (idx.insertIdx k i) ↔ ValidIdx s idx ∧ i < n := by
  unfold ValidIdx
  rw [length_insert hk, length_insert (by omega)]
  constructor
  · rintro ⟨-, h⟩
    refine ⟨⟨hl, fun j hj => ?_⟩, ?_⟩
    · by_cases hjk : j < k
      · have := h j (by omega)
        rwa [getD_insertIdx (by omega), getD_insertIdx hk, if_pos hjk, if_pos hjk] at this
      · have := h (j + 1) (by omega)
        rwa [getD_insertIdx (by omega), getD_insertIdx hk, if_neg (by omega), if_neg (by omega), if_neg (by omega), if_neg (by omega)] at this
    · have := h k (by omega)
      rwa [getD_insert_self (by omega), getD_insert_self hk] at this
  · rintro ⟨⟨-, h⟩, hi⟩
    refine ⟨by omega, fun j hj => ?_⟩
    rw [getD_insertIdx (by omega), getD_insertIdx hk]
    split
    · exact h j (by omega)
    · split
      · exact hi
      · exact h (j - 1) (by omega)

/-- Every index of an array with an inserted axis. -/
theorem valid_insert_cases {s J : List ℕ} {k n : ℕ} (hk : k ≤ s.length) (h : ValidIdx (s.insertIdx k n) J) :
    ∃ idx i, J = idx.insertIdx k i ∧ ValidIdx s idx ∧ i < n := by
  have hl : J.length = s.length + 1 := by rw [h.1, length_insert hk]
  have e : J = (J.eraseIdx k).insertIdx k (J.getD k 0) := by
    refine ext_getD (by rw [length_insert (by rw [List.length_eraseIdx_of_lt (by omega)]; omega), List.length_eraseIdx_of_lt (by omega)]; omega)
      fun j hj => ?_
    rw [getD_insertIdx (by rw [List.length_eraseIdx_of_lt (by omega)]; omega)]
    split
    next h => simp [List.getD_eq_getElem?_getD, List.getElem?_eraseIdx, h]
    next h =>
    split
    next h => rw [h]
    next h' => simp only [List.getD_eq_getElem?_getD, List.getElem?_eraseIdx]; rw [if_neg (by omega), show j - 1 + 1 = j by omega]
  refine ⟨J.eraseIdx k, J.getD k 0, e, ?_⟩
  rw [e] at h
  exact (valid_insert hk (by rw [List.length_eraseIdx_of_lt (by omega)]; omega)).mp h

theorem rdim_insert {s : List ℕ} {k v j : ℕ} (hk : k ≤ s.length) :
    rdim (s.insertIdx k v) j = if j < s.length - k then rdim s j else if j = s.length - k then v else rdim s (j - 1) := by
  have hl := length_insert (v := v) hk
  rcases Nat.lt_or_ge j (s.length + 1) with hj | hj
  · rw [rdim_of_lt (by omega), getD_insertIdx hk, hl]
    split
    · rw [if_neg (by omega), if_neg (by omega), rdim_of_lt (by omega)]; congr 1; omega
    · split
      · rw [if_neg (by omega), if_pos (by omega)]
      · rw [if_pos (by omega), rdim_of_lt (by omega)]; congr 1; omega
  · rw [rdim_of_ge (by omega), if_neg (by omega), if_neg (by omega), rdim_of_ge (by omega)]

theorem common_insert {s sh : List ℕ} {k n : ℕ} (hk : k ≤ sh.length) (hl : s.length = sh.length)
    (hf : ∀ j, rdim s j = rdim sh j ∨ rdim s j = 1) : Common [s.insertIdx k 1, sh.insertIdx k n] (sh.insertIdx k n) := by
  have hk' : k ≤ s.length := by omega
  refine ⟨?_, ⟨_, by simp, rfl⟩, ?_, fun j => ⟨_, by simp, rfl⟩⟩
  · intro t ht
    simp only [List.mem_cons, List.not_mem_nil, or_false] at ht
    rcases ht with rfl | rfl
    · rw [length_insert hk, length_insert hk']; omega
    · exact le_rfl
  · intro t ht j
    simp only [List.mem_cons, List.not_mem_nil, or_false] at ht
    rcases ht with rfl | rfl
    · rw [rdim_insert hk, rdim_insert hk', hl]
      split
      · exact hf _
      · split
        · exact .inr rfl
        · exact hf _
    · exact .inl rfl

theorem bcIdx_insert {s idx : List ℕ} {k i : ℕ} (hk : k ≤ s.length) (hl : idx.length = s.length) :
    bcIdx (s.insertIdx k 1) (idx.insertIdx k i) = (bcIdx s idx).insertIdx k 0 := by
  have h1 : (s.insertIdx k 1).length ≤ (idx.insertIdx k i).length := by
    rw [length_insert hk, length_insert (by omega)]; omega
  have hb : (bcIdx s idx).length = s.length := bcIdx_length (by omega)
  refine ext_getD (by rw [bcIdx_length h1, length_insert hk, length_insert (by omega)]; omega) fun j hj => ?_
  rw [bcIdx_length h1, length_insert hk] at hj
  rw [bcIdx_getD h1 (by rw [length_insert hk]; omega), length_insert hk, length_insert (by omega)]
  rw [show idx.length + 1 - (s.length + 1) + j = j by omega]
  rw [getD_insertIdx hk, getD_insertIdx (by omega), getD_insertIdx (by omega)]
  by_cases hjk : j < k
  · rw [if_pos hjk, if_pos hjk, if_pos hjk, bcIdx_getD (by omega) (by omega), show idx.length - s.length + j = j by omega]
  · rw [if_neg hjk, if_neg hjk, if_neg hjk]
    by_cases hjk' : j = k
    · rw [if_pos hjk', if_pos rfl, if_pos hjk']
    · rw [if_neg hjk', if_neg hjk', if_neg hjk', bcIdx_getD (by omega) (by omega), show idx.length - s.length + (j - 1) = j - 1 by omega]

variable {K : Type} [Field K]

theorem common_left {s t sh : List ℕ} (h : Common [s, t] sh) : Common [s, sh] sh :=
  ⟨by simpa using h.len s (by simp), ⟨sh, by simp, rfl⟩, by
    intro u hu k
    simp only [List.mem_cons, List.not_mem_nil, or_false] at hu
    rcases hu with rfl | rfl
    · exact h.fits _ (by simp) k
    · exact .inl rfl, fun k => ⟨sh, by simp, rfl⟩⟩

/-- `span` with any operations for which 0 is neutral. -/
theorem span_ops {K : Type} [Zero K] [Add K] [Sub K] [Div K] [IntCast K] (h0 : ∀ a : K, a + 0 = a) {start stop : NdArr K} {sh : List ℕ} (h : Common [start.shape, stop.shape] sh) {num : ℤ} (hn : 1 ≤ num)
    {axis : ℤ} {k : ℕ} (hax : IsAxis (sh.length + 1) axis k) :
    ∃ r, span start stop num axis = .ok r ∧ r.shape = sh.insertIdx k num.toNat ∧
      ∀ idx, ValidIdx sh idx → ∀ i : ℕ, i < num →
        r.get (idx.insertIdx k i) = if (i : ℤ) + 1 = num then bget stop idx else if i = 0 then bget start idx
          else bget start idx + NdArr.accum (fun _ => (bget stop idx - bget start idx) / ((num - 1 : ℤ) : K)) (i - 1) := by
  obtain ⟨hk, hax⟩ := hax
  have hk : k ≤ sh.length := by omega
  have hz := NdArr.zip_ok_of (f := fun _ _ => (0 : K)) h
  have h1 : Common [start.shape, (⟨sh, fun _ => (0 : K)⟩ : NdArr K).shape] sh := common_left h
  have h2 : Common [stop.shape, (⟨sh, fun _ => (0 : K)⟩ : NdArr K).shape] sh :=
    common_left (h.perm (List.Perm.swap _ _ _))
  have hz1 := NdArr.zip_ok_of (f := (· + ·)) h1
  have hz2 := NdArr.zip_ok_of (f := (· + ·)) h2
  have ha' : (if axis < 0 then axis + sh.length + 1 else axis) = k := by split <;> omega
  unfold span
  simp only [bind, Except.bind, pure, Except.pure, throw, throwThe, MonadExceptOf.throw]
  rw [hz]; simp only
  rw [hz1]; simp only
  rw [hz2]; simp only
  simp only [ha']
  rw [if_neg (by omega)]
  try simp only
  rw [if_neg (by omega)]
  try simp only
  rw [if_neg (by omega)]
  simp only [Int.toNat_natCast]
  have e1 : ∀ (a : NdArr K), bget a = fun idx => bget a idx + bget (⟨sh, fun _ => (0 : K)⟩ : NdArr K) idx := by
    intro a; funext idx; show _ = _ + 0; rw [h0]
  simp only [← e1]
  obtain ⟨d, d1, d2, d3⟩ := zip_same (f := fun b a : K => (b - a) / ((num - 1 : ℤ) : K))
    (a := NdArr.newAxis k ⟨sh, bget stop⟩) (b := NdArr.newAxis k ⟨sh, bget start⟩) rfl
  rw [d1]
  simp only
  refine ⟨_, rfl, ?_, fun idx hv i hi => ?_⟩
  · simp only [NdArr.repeatAx, NdArr.newAxis, set_insert hk, getD_insert_self hk, one_mul]
  · simp only [NdArr.repeatAx, NdArr.newAxis, NdArr.cumsumAx, set_insert hk, getD_insert_self hk, one_mul]
    have hki : k ≤ idx.length := by rw [hv.1]; exact hk
    simp only [getD_insert_self hki, set_insert hki, List.eraseIdx_insertIdx_self]
    have hdv : d.get (idx.insertIdx k 0) = (bget stop idx - bget start idx) / ((num - 1 : ℤ) : K) := by
      have := d3 (idx.insertIdx k 0) ((valid_insert hk hv.1).mpr ⟨hv, by omega⟩)
      simpa only [NdArr.newAxis, List.eraseIdx_insertIdx_self] using this
    by_cases hl : i + 1 = num.toNat
    · rw [if_pos hl, if_pos (by omega)]
    · rw [if_neg hl, if_neg (show ¬ (i : ℤ) + 1 = num by omega)]
      rcases Nat.eq_zero_or_pos i with hi0 | hi0
      · subst hi0; rw [if_neg (show ¬ 1 ≤ 0 by omega), if_pos rfl]
      · rw [if_pos (show 1 ≤ i by omega), if_neg (by omega)]
        congr 1
        have : ∀ n, n < (num - 1).toNat → NdArr.accum (fun t => d.get (idx.insertIdx k (t / (num - 1).toNat))) n =
            NdArr.accum (fun _ => (bget stop idx - bget start idx) / ((num - 1 : ℤ) : K)) n := by
          intro n
          induction n with
          | zero => intro hn; rw [NdArr.accum, NdArr.accum, Nat.div_eq_of_lt hn, hdv]
          | succ n ih => intro hn; rw [NdArr.accum, NdArr.accum, ih (by omega), Nat.div_eq_of_lt hn, hdv]
        exact this _ (by omega)

theorem span_core {start stop : NdArr K} {sh : List ℕ} (h : Common [start.shape, stop.shape] sh) {num : ℤ} (hn : 1 ≤ num)
    {axis : ℤ} {k : ℕ} (hax : IsAxis (sh.length + 1) axis k) :
    ∃ r, span start stop num axis = .ok r ∧ r.shape = sh.insertIdx k num.toNat ∧
      ∀ idx, ValidIdx sh idx → ∀ i : ℕ, i < num →
        r.get (idx.insertIdx k i) = if (i : ℤ) + 1 = num then bget stop idx
          else bget start idx + i * ((bget stop idx - bget start idx) / ((num - 1 : ℤ) : K)) := by
  obtain ⟨r, h1, h2, h3⟩ := span_ops (add_zero (M := K)) h hn hax
  refine ⟨r, h1, h2, fun idx hv i hi => ?_⟩
  rw [h3 idx hv i hi]
  split_ifs with a b
  · rfl
  · subst b; simp
  · rw [NdArr.accum_eq_sum, sum_const, card_range, nsmul_eq_mul, show i - 1 + 1 = i by omega]

/-- **C57** — `span(start, stop, num, axis)` with `num ≥ 2`: the new axis of length `num` is at the requested
position of the common shape of `start` and `stop`; along it the values are equally spaced (step
`(stop-start)/(num-1)`), the first is `start` and the last `stop`. -/
theorem C57_span {start stop : NdArr K} {sh : List ℕ} (h : Common [start.shape, stop.shape] sh) {num : ℕ} (hn : 2 ≤ num)
    (hc : ((num : K) - 1) ≠ 0) {axis : ℤ} {k : ℕ} (hax : IsAxis (sh.length + 1) axis k) :
    ∃ r, span start stop num axis = .ok r ∧ r.shape = sh.insertIdx k num ∧
      ∀ idx, ValidIdx sh idx → r.get (idx.insertIdx k 0) = bget start idx ∧ r.get (idx.insertIdx k (num - 1)) = bget stop idx ∧
        ∀ i, i + 1 < num → r.get (idx.insertIdx k (i + 1)) - r.get (idx.insertIdx k i) =
          (bget stop idx - bget start idx) / (num - 1) := by
  obtain ⟨r, h1, h2, h3⟩ := span_core h (num := (num : ℤ)) (by omega) hax
  refine ⟨r, h1, by simpa using h2, fun idx hv => ⟨?_, ?_, fun i hi => ?_⟩⟩
  · rw [h3 idx hv 0 (by omega), if_neg (by omega)]; simp
  · rw [h3 idx hv (num - 1) (by omega), if_pos (by omega)]
  · have ei := h3 idx hv i (by omega)
    rw [if_neg (by omega)] at ei
    rw [ei]
    by_cases hl : i + 2 = num
    · rw [h3 idx hv (i + 1) (by omega), if_pos (by omega)]
      subst hl
      push_cast at hc ⊢
      rw [show (i : K) + 2 - 1 = i + 1 by ring] at hc ⊢
      field_simp
      ring
    · rw [h3 idx hv (i + 1) (by omega), if_neg (by omega)]
      push_cast
      ring

/-- **C57** — every value, in closed form. -/
theorem C57_values {start stop : NdArr K} {sh : List ℕ} (h : Common [start.shape, stop.shape] sh) {num : ℕ} (hn : 2 ≤ num)
    (hc : ((num : K) - 1) ≠ 0) {axis : ℤ} {k : ℕ} (hax : IsAxis (sh.length + 1) axis k) :
    ∃ r, span start stop num axis = .ok r ∧ r.shape = sh.insertIdx k num ∧ ∀ idx, ValidIdx sh idx → ∀ i < num,
      r.get (idx.insertIdx k i) = bget start idx + (i / (num - 1)) * (bget stop idx - bget start idx) := by
  obtain ⟨r, h1, h2, h3⟩ := span_core h (num := (num : ℤ)) (by omega) hax
  refine ⟨r, h1, by simpa using h2, fun idx hv i hi => ?_⟩
  rw [h3 idx hv i (by omega)]
  split
  next hl =>
    have : num = i + 1 := by omega
    subst this
    push_cast at hc ⊢
    rw [show (i : K) + 1 - 1 = i by ring] at hc ⊢
    rw [div_self hc]; ring
  next => push_cast; ring

/-- **C57, finding** — with `num=1` the single point is `stop`, not `start`. -/
theorem C57_one_point_wrong {start stop : NdArr K} {sh : List ℕ} (h : Common [start.shape, stop.shape] sh)
    {axis : ℤ} {k : ℕ} (hax : IsAxis (sh.length + 1) axis k) :
    ∃ r, span start stop 1 axis = .ok r ∧ r.shape = sh.insertIdx k 1 ∧ ∀ idx, ValidIdx sh idx →
      r.get (idx.insertIdx k 0) = bget stop idx := by
  obtain ⟨r, h1, h2, h3⟩ := span_core h (num := 1) (by omega) hax
  exact ⟨r, h1, by simpa using h2, fun idx hv => by rw [h3 idx hv 0 (by omega), if_pos (by omega)]⟩

/-- **C57** — arguments that do not conform, a bad axis and `num < 1` raise ValueError. -/
theorem C57_errors {start stop : NdArr K} {num : ℤ} {axis : ℤ}
    (h : (¬ ∃ sh, Common [start.shape, stop.shape] sh) ∨ num < 1 ∨
      ∃ sh, Common [start.shape, stop.shape] sh ∧ ¬ ∃ k, IsAxis (sh.length + 1) axis k) :
    span start stop num axis = .error .valueError := by
  by_cases hc : ∃ sh, Common [start.shape, stop.shape] sh
  · obtain ⟨sh, hc⟩ := hc
    have hz := NdArr.zip_ok_of (f := fun _ _ => (0 : K)) hc
    have h1 : Common [start.shape, (⟨sh, fun _ => (0 : K)⟩ : NdArr K).shape] sh := common_left hc
    have h2 : Common [stop.shape, (⟨sh, fun _ => (0 : K)⟩ : NdArr K).shape] sh :=
      common_left (hc.perm (List.Perm.swap _ _ _))
    have hz1 := NdArr.zip_ok_of (f := (· + ·)) h1
    have hz2 := NdArr.zip_ok_of (f := (· + ·)) h2
    unfold span
    simp only [bind, Except.bind, pure, Except.pure, throw, throwThe, MonadExceptOf.throw]
    rw [hz]; simp only
    rw [hz1]; simp only
    rw [hz2]; simp only
    by_cases hax : (if axis < 0 then axis + sh.length + 1 else axis) < 0 ∨ (sh.length : ℤ) < (if axis < 0 then axis + sh.length + 1 else axis)
    · rw [if_pos hax]
    · rw [if_neg hax]
      try simp only
      by_cases hn : num < 0
      · rw [if_pos hn]
      rw [if_neg hn]
      try simp only
      by_cases hn1 : num - 1 < 0
      · rw [if_pos hn1]
      exfalso
      rcases h with h | h | ⟨sh', h, h'⟩
      · exact h ⟨sh, hc⟩
      · omega
      · have := h.unique hc
        subst this
        exact h' ⟨(if axis < 0 then axis + sh'.length + 1 else axis).toNat, by split at hax <;> split <;> omega, by split at hax <;> split <;> omega⟩
  · unfold span
    simp only [bind, Except.bind]
    rw [NdArr.zip_err hc]

end Npplus
