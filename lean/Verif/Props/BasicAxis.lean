import Verif.Model.Basic
import Verif.Lemmas.NdArr
import Mathlib.Algebra.BigOperators.Intervals
import Mathlib.Algebra.BigOperators.Ring.Finset

/-!
# C64, C65: `cum`, `zcen`, `pcen`
-/

set_option linter.unusedSectionVars false

namespace Npplus
open Spec Basic Finset

/-- `axis` (possibly negative) names the `k`-th of `nd` axes. -/
def IsAxis (nd : ℕ) (axis : ℤ) (k : ℕ) : Prop := k < nd ∧ (axis = k ∨ axis = (k : ℤ) - nd)

theorem normAxis_of {nd k : ℕ} {axis : ℤ} (h : IsAxis nd axis k) : normAxis nd axis = .ok k := by
  obtain ⟨h1, h2⟩ := h
  unfold normAxis
  rw [if_pos (by omega)]
  congr 1
  split <;> omega

theorem normAxis_bad {nd : ℕ} {axis : ℤ} (h : ¬ ∃ k, IsAxis nd axis k) : normAxis nd axis = .error .indexError := by
  unfold normAxis
  rw [if_neg]
  intro hc
  exact h ⟨(if axis < 0 then axis + nd else axis).toNat, by split <;> omega, by split <;> omega⟩

theorem getD_set_self {l : List ℕ} {k v : ℕ} (h : k < l.length) : (l.set k v).getD k 0 = v := by
  rw [List.getD_eq_getElem _ _ (by simpa using h)]; simp

theorem getD_set_ne {l : List ℕ} {k j v : ℕ} (h : j ≠ k) : (l.set k v).getD j 0 = l.getD j 0 := by
  simp [List.getD_eq_getElem?_getD, List.getElem?_set, Ne.symm h]

theorem valid_set {s idx : List ℕ} {k n : ℕ} (hk : k < s.length) :
    ValidIdx (s.set k n) idx ↔ idx.length = s.length ∧ idx.getD k 0 < n ∧ ∀ j < s.length, j ≠ k → idx.getD j 0 < s.getD j 0 := by
  unfold ValidIdx
  rw [List.length_set]
  constructor
  · rintro ⟨h1, h2⟩
    refine ⟨h1, ?_, fun j hj hjk => ?_⟩
    · have := h2 k hk; rwa [getD_set_self hk] at this
    · have := h2 j hj; rwa [getD_set_ne hjk] at this
  · rintro ⟨h1, h2, h3⟩
    refine ⟨h1, fun j hj => ?_⟩
    by_cases hjk : j = k
    · subst hjk; rwa [getD_set_self hk]
    · rw [getD_set_ne hjk]; exact h3 j hj hjk

theorem set_getD_self {l : List ℕ} {k : ℕ} : l.set k (l.getD k 0) = l := by
  rcases Nat.lt_or_ge k l.length with h | h
  · rw [List.getD_eq_getElem _ _ h, List.set_getElem_self]
  · rw [List.set_eq_of_length_le h]

theorem set_getD_eq {l : List ℕ} {k v : ℕ} (h : v = l.getD k 0) : l.set k v = l := by rw [h, set_getD_self]

variable {K : Type}

theorem cum_value [AddCommMonoid K] (k : ℕ) (a : NdArr K) {idx : List ℕ} (hl : idx.length = a.shape.length) (hk : k < a.shape.length) :
    (NdArr.concatAx k ⟨a.shape.set k 1, fun _ => 0⟩ (a.cumsumAx k)).get idx =
      ∑ i ∈ range (idx.getD k 0), a.get (idx.set k i) := by
  simp only [NdArr.concatAx, NdArr.cumsumAx, NdArr.accum_eq_sum, getD_set_self hk]
  split
  next h => rw [show idx.getD k 0 = 0 by omega]; simp
  next h =>
  rw [getD_set_self (by omega), show idx.getD k 0 - 1 + 1 = idx.getD k 0 by omega]
  exact sum_congr rfl fun i _ => by rw [List.set_set]

/-- **C64** — `cum(a, axis)`: one more element along the axis, each the sum of the elements before it (so the
first is 0). -/
theorem C64_cum [AddCommMonoid K] (a : NdArr K) {axis : ℤ} {k : ℕ} (hax : IsAxis a.shape.length axis k) :
    ∃ r, cum a (some axis) = .ok r ∧ r.shape = a.shape.set k (a.shape.getD k 0 + 1) ∧
      ∀ idx, ValidIdx r.shape idx → r.get idx = ∑ i ∈ range (idx.getD k 0), a.get (idx.set k i) := by
  have hne : a.shape ≠ [] := by intro h; have := hax.1; rw [h] at this; simp at this
  refine ⟨NdArr.concatAx k ⟨a.shape.set k 1, fun _ => 0⟩ (a.cumsumAx k), ?_, ?_, ?_⟩
  · unfold cum
    rw [if_neg hne]
    simp only [bind, Except.bind, pure, Except.pure, normAxis_of hax]
  · simp only [NdArr.concatAx, NdArr.cumsumAx, NdArr.accum_eq_sum, List.set_set, getD_set_self hax.1, add_comm]
  · intro idx hv
    refine cum_value k a ?_ hax.1
    have := hv.1
    simpa [NdArr.concatAx] using this

/-- **C64** — with `axis=None` the elements are taken in C order. -/
theorem C64_cum_flat [AddCommMonoid K] (a : NdArr K) (hne : a.shape ≠ []) :
    ∃ r, cum a none = .ok r ∧ r.shape = [a.shape.prod + 1] ∧
      ∀ j, j ≤ a.shape.prod → r.get [j] = ∑ i ∈ range j, a.get (NdArr.unravel a.shape i) := by
  refine ⟨NdArr.concatAx 0 ⟨[1], fun _ => 0⟩ (a.ravel.cumsumAx 0), ?_, ?_, ?_⟩
  · unfold cum; rw [if_neg hne]; rfl
  · simp [NdArr.concatAx, NdArr.cumsumAx, NdArr.accum_eq_sum, NdArr.ravel, add_comm]
  · intro j _
    have := cum_value 0 a.ravel (idx := [j]) rfl (by simp [NdArr.ravel])
    simpa [NdArr.ravel] using this

/-- **C64** — `diff(cum(a)) = a`. -/
theorem C64_diff_cum [AddCommGroup K] (a : NdArr K) {axis : ℤ} {k : ℕ} (hax : IsAxis a.shape.length axis k) {r : NdArr K}
    (h : cum a (some axis) = .ok r) : (r.diffAx k).Same a := by
  obtain ⟨r', h1, h2, h3⟩ := C64_cum a hax
  rw [h] at h1; cases h1
  have hs : (r.diffAx k).shape = a.shape := by
    simp only [NdArr.diffAx, h2, List.set_set, getD_set_self hax.1, Nat.add_sub_cancel, set_getD_self]
  refine ⟨hs, fun idx hv => ?_⟩
  rw [hs] at hv
  obtain ⟨v1, v2⟩ := hv
  have hk := hax.1
  have hva : ValidIdx r.shape (idx.set k (idx.getD k 0 + 1)) := by
    rw [h2, valid_set hk]
    refine ⟨by simpa using v1, ?_, fun j hj hjk => by rw [getD_set_ne hjk]; exact v2 j hj⟩
    rw [getD_set_self (by omega)]
    have := v2 k hk; omega
  have hvb : ValidIdx r.shape idx := by
    rw [h2, valid_set hk]
    refine ⟨v1, ?_, fun j hj hjk => v2 j hj⟩
    have := v2 k hk; omega
  simp only [NdArr.diffAx]
  rw [h3 _ hva, h3 _ hvb, getD_set_self (by omega), sum_range_succ]
  simp only [List.set_set, set_getD_self]
  rw [add_sub_cancel_left]

/-- **C64** — `cum(diff(a)) = a - a[0]` along the axis (of length at least 1). -/
theorem C64_cum_diff [AddCommGroup K] (a : NdArr K) {axis : ℤ} {k : ℕ} (hax : IsAxis a.shape.length axis k)
    (hn : 0 < a.shape.getD k 0) :
    ∃ r, cum (a.diffAx k) (some axis) = .ok r ∧ r.Same ⟨a.shape, fun idx => a.get idx - a.get (idx.set k 0)⟩ := by
  have hax' : IsAxis (a.diffAx k).shape.length axis k := by simpa [NdArr.diffAx] using hax
  obtain ⟨r, h1, h2, h3⟩ := C64_cum (a.diffAx k) hax'
  have hk := hax.1
  have hs : r.shape = a.shape := by
    rw [h2]
    simp only [NdArr.diffAx, List.set_set, getD_set_self hk]
    rw [show a.shape.getD k 0 - 1 + 1 = a.shape.getD k 0 by omega, set_getD_self]
  refine ⟨r, h1, hs, fun idx hv => ?_⟩
  rw [h3 idx hv]
  rw [hs] at hv
  have e : ∀ i, (a.diffAx k).get (idx.set k i) = a.get (idx.set k (i + 1)) - a.get (idx.set k i) := by
    intro i
    simp only [NdArr.diffAx, List.set_set]
    rw [getD_set_self (by rw [hv.1]; exact hk)]
  simp only [e]
  rw [sum_range_sub (fun i => a.get (idx.set k i))]
  simp only [set_getD_self]

/-- **C64**, **C65** — a scalar raises TypeError, an axis that does not exist IndexError. -/
theorem C64_errors [Field K] (a : NdArr K) (axis : ℤ) :
    (a.shape = [] → (∀ ax, cum a ax = .error .typeError) ∧ zcen a axis = .error .typeError ∧ pcen a axis = .error .typeError) ∧
    (a.shape ≠ [] → (¬ ∃ k, IsAxis a.shape.length axis k) →
      cum a (some axis) = .error .indexError ∧ zcen a axis = .error .indexError ∧ pcen a axis = .error .indexError) := by
  constructor
  · intro h
    refine ⟨fun ax => ?_, ?_, ?_⟩
    · unfold cum; rw [if_pos h]; rfl
    · unfold zcen; rw [if_pos h]; rfl
    · unfold pcen; rw [if_pos h]; rfl
  · intro h hax
    refine ⟨?_, ?_, ?_⟩
    · unfold cum; rw [if_neg h]; simp only [bind, Except.bind, normAxis_bad hax, pure, Except.pure]
    · unfold zcen; rw [if_neg h]; simp only [bind, Except.bind, normAxis_bad hax, pure, Except.pure]
    · unfold pcen; rw [if_neg h]; simp only [bind, Except.bind, normAxis_bad hax, pure, Except.pure]

theorem common_same (s : List ℕ) : Common [s, s] s :=
  ⟨by simp, ⟨s, by simp, rfl⟩, by simp, fun k => ⟨s, by simp, rfl⟩⟩

/-- An elementwise operation of arrays of the same shape. -/
theorem zip_same {α β γ : Type} {f : α → β → γ} {a : NdArr α} {b : NdArr β} (h : a.shape = b.shape) :
    ∃ r, a.zip f b = .ok r ∧ r.shape = a.shape ∧ ∀ idx, ValidIdx a.shape idx → r.get idx = f (a.get idx) (b.get idx) := by
  refine ⟨_, NdArr.zip_ok_of (sh := a.shape) (by rw [← h]; exact common_same _), rfl, fun idx hv => ?_⟩
  show f (bget a idx) (bget b idx) = _
  rw [bget_self hv, bget_self (h ▸ hv)]

theorem zcen_mid [Field K] (a : NdArr K) {k : ℕ} (hk : k < a.shape.length) {n : ℕ} :
    ∃ r, (a.sliceAx k 1 (n - 1)).zip (fun u v => (u + v) * (1 / 2)) (a.sliceAx k 0 (n - 1)) = .ok r ∧
      r.shape = a.shape.set k (n - 1) ∧ ∀ idx, ValidIdx r.shape idx →
        r.get idx = (a.get idx + a.get (idx.set k (idx.getD k 0 + 1))) / 2 := by
  obtain ⟨r, h1, h2, h3⟩ := zip_same (f := fun u v : K => (u + v) * (1 / 2)) (a := a.sliceAx k 1 (n - 1)) (b := a.sliceAx k 0 (n - 1)) rfl
  refine ⟨r, h1, h2, fun idx hv => ?_⟩
  rw [h3 idx (h2 ▸ hv)]
  simp only [NdArr.sliceAx, Nat.add_zero, set_getD_self]
  rw [mul_one_div, add_comm]

/-- **C65** — `zcen(a, axis)`: one element fewer along the axis, the mean of the neighbours; fewer than two
elements raise TypeError. -/
theorem C65_zcen [Field K] (a : NdArr K) {axis : ℤ} {k : ℕ} (hax : IsAxis a.shape.length axis k) :
    (a.shape.getD k 0 < 2 → zcen a axis = .error .typeError) ∧
    (2 ≤ a.shape.getD k 0 → ∃ r, zcen a axis = .ok r ∧ r.shape = a.shape.set k (a.shape.getD k 0 - 1) ∧
      ∀ idx, ValidIdx r.shape idx → r.get idx = (a.get idx + a.get (idx.set k (idx.getD k 0 + 1))) / 2) := by
  have hne : a.shape ≠ [] := by intro h; have := hax.1; rw [h] at this; simp at this
  constructor
  · intro h
    unfold zcen
    rw [if_neg hne]
    simp only [bind, Except.bind, pure, Except.pure, normAxis_of hax]
    rw [if_pos h]; rfl
  · intro h
    obtain ⟨r, h1, h2, h3⟩ := zcen_mid a hax.1 (n := a.shape.getD k 0)
    refine ⟨r, ?_, h2, h3⟩
    unfold zcen
    rw [if_neg hne]
    simp only [bind, Except.bind, pure, Except.pure, normAxis_of hax]
    rw [if_neg (by omega)]
    exact h1

/-- **C65** — `pcen(a, axis)` of an axis of length `n ≥ 1`: `n+1` elements, the first and last those of `a`, the
others the means of neighbours. -/
theorem C65_pcen [Field K] (a : NdArr K) {axis : ℤ} {k : ℕ} (hax : IsAxis a.shape.length axis k) {n : ℕ}
    (hn : a.shape.getD k 0 = n) (h1 : 1 ≤ n) :
    ∃ r, pcen a axis = .ok r ∧ r.shape = a.shape.set k (n + 1) ∧ ∀ idx, ValidIdx r.shape idx →
      r.get idx = if idx.getD k 0 = 0 then a.get idx else if idx.getD k 0 = n then a.get (idx.set k (n - 1))
        else (a.get (idx.set k (idx.getD k 0 - 1)) + a.get idx) / 2 := by
  have hne : a.shape ≠ [] := by intro h; have := hax.1; rw [h] at this; simp at this
  have hk := hax.1
  by_cases h2 : n < 2
  · have hn1 : n = 1 := by omega
    subst hn1
    refine ⟨(a.sliceAx k 0 1).concatAx k (a.sliceAx k 0 1), ?_, ?_, fun idx hv => ?_⟩
    · unfold pcen
      rw [if_neg hne]
      simp only [bind, Except.bind, pure, Except.pure, normAxis_of hax, hn]
      rw [if_pos (by omega)]
      simp
    · simp only [NdArr.concatAx, NdArr.sliceAx, List.set_set, getD_set_self hk]
    · simp only [NdArr.concatAx, NdArr.sliceAx, List.set_set, getD_set_self hk, List.length_set] at hv ⊢
      obtain ⟨v1, v2, -⟩ := (valid_set hk).mp hv
      by_cases h0 : idx.getD k 0 = 0
      · rw [if_pos (by omega), if_pos h0]
        rw [Nat.add_zero, set_getD_self]
      · rw [if_neg (by omega), if_neg h0, if_pos (by omega)]
        rw [getD_set_self (by omega)]
        congr 2; omega
  · obtain ⟨mid, m1, m2, m3⟩ := zcen_mid a hk (n := n)
    refine ⟨((a.sliceAx k 0 (min n 1)).concatAx k mid).concatAx k (a.sliceAx k (n - 1) (min n 1)), ?_, ?_, fun idx hv => ?_⟩
    · unfold pcen
      rw [if_neg hne]
      simp only [bind, Except.bind, pure, Except.pure, normAxis_of hax, hn]
      rw [if_neg h2]
      simp only [m1]
    · simp only [NdArr.concatAx, NdArr.sliceAx, List.set_set, getD_set_self hk, m2]
      congr 1; omega
    · simp only [NdArr.concatAx, NdArr.sliceAx, List.set_set, getD_set_self hk, m2, List.length_set] at hv ⊢
      obtain ⟨v1, v2, v3⟩ := (valid_set hk).mp hv
      have hmin : min n 1 = 1 := by omega
      simp only [hmin] at v2 ⊢
      by_cases h0 : idx.getD k 0 = 0
      · rw [if_pos (by omega), if_pos (by omega), if_pos h0, Nat.add_zero, set_getD_self]
      · rw [if_neg h0]
        by_cases hl : idx.getD k 0 = n
        · rw [if_neg (by omega), if_pos hl, getD_set_self (by omega)]
          congr 2; omega
        · rw [if_pos (by omega), if_neg (by omega), if_neg hl, m3]
          · rw [getD_set_self (by omega), List.set_set]
            rw [show idx.getD k 0 - 1 + 1 = idx.getD k 0 by omega, set_getD_self]
          · rw [m2, valid_set hk]
            refine ⟨by simpa using v1, ?_, fun j hj hjk => by rw [getD_set_ne hjk]; exact v3 j hj hjk⟩
            rw [getD_set_self (by omega)]; omega

/-- **C65, finding** — an axis of length 0 stays empty, it does not get one more element. -/
theorem C65_pcen_empty_wrong [Field K] (a : NdArr K) {axis : ℤ} {k : ℕ} (hax : IsAxis a.shape.length axis k)
    (hn : a.shape.getD k 0 = 0) : ∃ r, pcen a axis = .ok r ∧ r.shape = a.shape ∧ r.shape ≠ a.shape.set k (a.shape.getD k 0 + 1) := by
  have hne : a.shape ≠ [] := by intro h; have := hax.1; rw [h] at this; simp at this
  have hs : ((a.sliceAx k 0 0).concatAx k (a.sliceAx k (0 - 1) 0)).shape = a.shape := by
    simp only [NdArr.concatAx, NdArr.sliceAx, List.set_set, getD_set_self hax.1, Nat.add_zero]
    exact set_getD_eq hn.symm
  refine ⟨(a.sliceAx k 0 0).concatAx k (a.sliceAx k (0 - 1) 0), ?_, hs, ?_⟩
  · unfold pcen
    rw [if_neg hne]
    simp only [bind, Except.bind, pure, Except.pure, normAxis_of hax, hn]
    rw [if_pos (by omega)]
    simp
  · rw [hs]
    intro hc
    have := congrArg (fun l : List ℕ => l.getD k 0) hc
    simp only [getD_set_self hax.1] at this
    omega

/-- **C65** — `cum(zcen(f)*diff(x))` is the trapezoid rule: along the axis its elements are
`Σ_{i<j} (f[i]+f[i+1])/2 * (x[i+1]-x[i])`. -/
theorem C65_trapezoid [Field K] (f x : NdArr K) {axis : ℤ} {k : ℕ} (hax : IsAxis f.shape.length axis k) (hs : f.shape = x.shape)
    (hn : 2 ≤ f.shape.getD k 0) :
    ∃ z p r, zcen f axis = .ok z ∧ z.zip (· * ·) (x.diffAx k) = .ok p ∧ cum p (some axis) = .ok r ∧ r.shape = f.shape ∧
      ∀ idx, ValidIdx f.shape idx → r.get idx = ∑ i ∈ range (idx.getD k 0),
        (f.get (idx.set k i) + f.get (idx.set k (i + 1))) / 2 * (x.get (idx.set k (i + 1)) - x.get (idx.set k i)) := by
  obtain ⟨z, z1, z2, z3⟩ := (C65_zcen f hax).2 hn
  have hk := hax.1
  have hsh : z.shape = (x.diffAx k).shape := by rw [z2]; simp [NdArr.diffAx, hs]
  obtain ⟨p, p1, p2, p3⟩ := zip_same (f := fun a b : K => a * b) hsh
  have haxp : IsAxis p.shape.length axis k := by rw [p2, z2]; simpa using hax
  obtain ⟨r, r1, r2, r3⟩ := C64_cum p haxp
  have hrs : r.shape = f.shape := by
    rw [r2, p2, z2, List.set_set, getD_set_self hk, show f.shape.getD k 0 - 1 + 1 = f.shape.getD k 0 by omega, set_getD_self]
  refine ⟨z, p, r, z1, p1, r1, hrs, fun idx hv => ?_⟩
  rw [r3 idx (hrs ▸ hv)]
  refine sum_congr rfl fun i hi => ?_
  have hil := mem_range.mp hi
  have hvk := hv.2 k hk
  have hvz : ValidIdx z.shape (idx.set k i) := by
    rw [z2, valid_set hk]
    exact ⟨by simpa using hv.1, by rw [getD_set_self (by rw [hv.1]; exact hk)]; omega,
      fun j hj hjk => by rw [getD_set_ne hjk]; exact hv.2 j hj⟩
  rw [p3 _ hvz, z3 _ hvz]
  simp only [NdArr.diffAx, List.set_set]
  rw [getD_set_self (by rw [hv.1]; exact hk)]

/-! ### non-trivial instances -/

/-- The docstring examples: rows `1 2 3 4` and `5 6 7 8`. -/
def demo : NdArr ℚ := ⟨[2, 4], fun i => 4 * (i.getD 0 0 : ℚ) + i.getD 1 0 + 1⟩

example : IsAxis demo.shape.length (-1) 1 ∧ IsAxis demo.shape.length 0 0 := by
  constructor <;> exact ⟨by decide, by decide⟩

example : ((zcen demo).map fun r => (r.shape, [r.get [0, 0], r.get [0, 2], r.get [1, 1]])) = .ok ([2, 3], [3/2, 7/2, 13/2]) ∧
    ((pcen demo).map fun r => (r.shape, [r.get [0, 0], r.get [0, 1], r.get [1, 4]])) = .ok ([2, 5], [1, 3/2, 8]) ∧
    ((cum demo).map fun r => (r.shape, [r.get [0, 0], r.get [0, 4], r.get [1, 2]])) = .ok ([2, 5], [0, 10, 11]) ∧
    ((cum demo (some 0)).map fun r => (r.shape, [r.get [0, 0], r.get [2, 1]])) = .ok ([3, 4], [0, 8]) ∧
    ((cum demo none).map fun r => (r.shape, [r.get [0], r.get [6], r.get [8]])) = .ok ([9], [0, 21, 36]) := by
  decide +kernel

end Npplus
