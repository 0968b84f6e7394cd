import Verif.Model.Spline
import Verif.Props.SolvePer
import Verif.Lemmas.PwPoly
import Mathlib.Data.Nat.Choose.Sum

/-! # Lemmas about the spline system -/

set_option linter.unusedSectionVars false

namespace Npplus

open Spec Finset

variable {K : Type} [Field K] [LinearOrder K] {V : Type} [AddCommGroup V] [Module K V]

/-! ### binomial coefficients -/

theorem bicoRow_spec (deg m : ℕ) (hm : m ≤ deg + 1) : (bicoRow K deg m).length = deg + 1 ∧
    ∀ k ≤ deg, (bicoRow K deg m).getD k 0 = (k.choose m : K) := by
  induction m with
  | zero =>
    refine ⟨by simp [bicoRow], fun k hk => ?_⟩
    simp [bicoRow, List.getD_eq_getElem?_getD, List.getElem?_replicate, show k < deg + 1 by omega]
  | succ m ih =>
    obtain ⟨hl, hv⟩ := ih (by omega)
    refine ⟨by simp [bicoRow, PwPoly.length_cumsumFrom, hl]; omega, fun k hk => ?_⟩
    unfold bicoRow
    by_cases hkm : k < m + 1
    · rw [List.getD_append _ _ _ _ (by simpa using hkm), Nat.choose_eq_zero_of_lt hkm]
      simp [List.getD_eq_getElem?_getD, hkm]
    · rw [List.getD_append_right _ _ _ _ (by simp; omega)]
      simp only [List.length_replicate]
      rw [List.getD_eq_getElem _ _ (by simp [PwPoly.length_cumsumFrom, hl]; omega),
        PwPoly.cumsumFrom_getElem, zero_add]
      have e : ∀ j ∈ range (k - (m + 1) + 1),
          (((bicoRow K deg m).drop m).dropLast).getD j 0 = ((m + j).choose m : K) := by
        intro j hj
        rw [mem_range] at hj
        rw [← hv (m + j) (by omega), List.getD_eq_getElem _ _ (by simp [hl]; omega),
          List.getD_eq_getElem _ _ (by omega)]
        simp
      rw [sum_congr rfl e]
      have h := Nat.sum_range_add_choose (k - (m + 1)) m
      rw [← Nat.cast_sum]
      congr 1
      rw [show k - (m + 1) + m + 1 = k by omega] at h
      rw [← h]
      exact sum_congr rfl fun j _ => by rw [Nat.add_comm]

/-! ### rows of band systems -/

/-- Row `i` of a band matrix as a sum over the diagonals. -/
theorem band_row (l u N : ℕ) (ab : ℕ → ℕ → K) (z : ℕ → V) (i : ℕ) :
    ∑ c ∈ range N, bandMat l u ab i c • z c =
      ∑ r ∈ range (l + u + 1), if r ≤ u + i ∧ u + i - r < N then ab r (u + i - r) • z (u + i - r) else 0 := by
  have h1 : ∀ c ∈ range N, bandMat l u ab i c • z c =
      ∑ r ∈ range (l + u + 1), if r + c = u + i then ab r c • z c else 0 := by
    intro c _
    unfold bandMat
    split_ifs with h
    · rw [sum_eq_single (u + i - c)]
      · rw [if_pos (by omega)]
      · intro r _ hr; rw [if_neg (by omega)]
      · intro hr; simp at hr; omega
    · rw [zero_smul]; symm
      refine sum_eq_zero fun r hr => ?_
      simp at hr
      rw [if_neg (by omega)]
  rw [sum_congr rfl h1, sum_comm]
  refine sum_congr rfl fun r _ => ?_
  split_ifs with h
  · rw [sum_eq_single (u + i - r)]
    · rw [if_pos (by omega)]
    · intro c _ hc; rw [if_neg (by omega)]
    · intro hr; simp at hr; omega
  · refine sum_eq_zero fun c hc => ?_
    simp at hc
    rw [if_neg (by omega)]

/-- Row `i` of a cyclic band matrix as a sum over the diagonals. -/
theorem cyclic_row (l u N : ℕ) (hN : 0 < N) (hr : l + u ≤ N) (ab : ℕ → ℕ → K) (z : ℕ → V) (i : ℕ) :
    ∑ c ∈ range N, cyclicMat N l u ab i c • z c =
      ∑ r ∈ range (l + u + 1), ab r ((i + u + (N - r)) % N) • z ((i + u + (N - r)) % N) := by
  simp only [cyclicMat, sum_smul]
  rw [sum_comm]
  refine sum_congr rfl fun r hr' => ?_
  simp at hr'
  rw [sum_eq_single ((i + u + (N - r)) % N)]
  · rw [if_pos]
    rw [Nat.mod_add_mod, show i + u + (N - r) + r = i + u + N by omega, Nat.add_mod_right]
  · intro c hc hne
    rw [mem_range] at hc
    rw [if_neg, zero_smul]
    intro h
    apply hne
    have h2 : (i + u + (N - r)) % N = (c + r + (N - r)) % N := by
      exact Nat.ModEq.add_right (N - r) h
    rw [h2, show c + r + (N - r) = c + N by omega, Nat.add_mod_right, Nat.mod_eq_of_lt hc]
  · intro h; exact absurd (mem_range.mpr (Nat.mod_lt _ hN)) h

/-! ### the rows of the spline matrix -/

theorem sum_tail {n m : ℕ} (hm : 1 ≤ m) (hmn : m ≤ n) (coef : ℕ → K) (h0 : ∀ q, q + 1 < m → coef q = 0)
    (w : ℕ → V) :
    ∑ r ∈ range (n + 1), (if m ≤ r then coef (m + n - r - 1) • w (m + n - r - 1) else 0) =
      ∑ q ∈ range n, coef q • w q := by
  rw [sum_range_split _ (show m + (n - m + 1) = n + 1 by omega),
    sum_range_split (fun q => coef q • w q) (show (m - 1) + (n - m + 1) = n by omega)]
  congr 1
  · rw [sum_eq_zero, sum_eq_zero]
    · intro q hq; rw [mem_range] at hq; rw [h0 q (by omega), zero_smul]
    · intro r hr; rw [mem_range] at hr; rw [if_neg (by omega)]
  · rw [← sum_range_reflect]
    refine sum_congr rfl fun t ht => ?_
    rw [mem_range] at ht
    rw [if_pos (by omega), show m + n - (m + (n - m + 1 - 1 - t)) - 1 = m - 1 + t by omega]

theorem row_cont {n m : ℕ} (hm : 1 ≤ m) (hmn : m < n) (T : ℕ → V) (a : V) (w : ℕ → V)
    (h0 : T 0 = -a) (h1 : ∀ r, 1 ≤ r → r < m → T r = 0)
    (h2 : ∀ r, m ≤ r → r ≤ n → T r = ((m + n - r).choose m : K) • w (m + n - r - 1)) :
    ∑ r ∈ range (n + 1), T r = ∑ q ∈ range n, ((q + 1).choose m : K) • w q - a := by
  have h3 : ∀ r ∈ range (n + 1), T r = (if m ≤ r then
      (((m + n - r - 1) + 1).choose m : K) • w (m + n - r - 1) else 0) + if r = 0 then -a else 0 := by
    intro r hr
    rw [mem_range] at hr
    by_cases hr0 : r = 0
    · subst hr0; rw [if_neg (by omega), if_pos rfl, h0, zero_add]
    · rw [if_neg hr0, add_zero]
      split_ifs with h
      · rw [h2 r h (by omega), show m + n - r - 1 + 1 = m + n - r by omega]
      · exact h1 r (by omega) (by omega)
  rw [sum_congr rfl h3, sum_add_distrib, sum_tail hm hmn.le (fun q => ((q + 1).choose m : K)) (fun q hq => by
      rw [Nat.choose_eq_zero_of_lt hq]; simp) w, sum_ite_eq' (range (n + 1)) 0, if_pos (by simp)]
  abel

theorem row_val {n : ℕ} (T : ℕ → V) (w : ℕ → V) (h1 : ∀ r < n, T r = w (n - 1 - r)) (h2 : T n = 0) :
    ∑ r ∈ range (n + 1), T r = ∑ q ∈ range n, w q := by
  rw [sum_range_succ, h2, add_zero, ← sum_range_reflect]
  refine sum_congr rfl fun t ht => ?_
  rw [mem_range] at ht
  rw [h1 _ (by omega), show n - 1 - (n - 1 - t) = t by omega]

namespace Spl

theorem baseAB_mid {n nk1 : ℕ} (dx : ℕ → K) {r j q : ℕ} (hr : 1 ≤ r) (hrn : r ≤ n) (hq : q < n)
    (h : ¬(r = n ∧ q = n - 1)) : baseAB n nk1 dx r (j * n + q) = ((q + 1).choose (n - r) : K) := by
  unfold baseAB
  obtain ⟨_, h2⟩ := flat_div (r := j) hq
  rw [if_neg (by omega), h2, if_neg h, (bicoRow_spec n (n - r) (by omega)).2 _ (by omega)]

theorem baseAB_sub {n nk1 : ℕ} (dx : ℕ → K) {c : ℕ} (hn : 1 ≤ n) (h : c % n = n - 1) :
    baseAB n nk1 dx n c = 0 := by
  unfold baseAB
  rw [if_neg (by omega), if_pos ⟨rfl, h⟩]

theorem baseAB_top {n nk1 : ℕ} (dx : ℕ → K) {c j m : ℕ} (hm : m < n) (hj : j < nk1)
    (h : c % (nk1 * n) = (j * n + m + (n - 1)) % (nk1 * n)) :
    baseAB n nk1 dx 0 c = if m = 0 then 1 else -(dx j / dx ((j + 1) % nk1)) ^ m := by
  unfold baseAB dxrFlat
  have hlt : j * n + m < nk1 * n := by
    calc j * n + m < j * n + n := by omega
      _ = (j + 1) * n := by ring
      _ ≤ nk1 * n := Nat.mul_le_mul_right _ (by omega)
  obtain ⟨h1, h2⟩ := flat_div (r := j) hm
  rw [if_pos rfl, rollIdx_of_mod hlt h, h1, h2]

theorem block_lt {n nk1 j q : ℕ} (hq : q < n) (hj : j < nk1) : j * n + q < nk1 * n := by
  calc j * n + q < j * n + n := by omega
    _ = (j + 1) * n := by ring
    _ ≤ nk1 * n := Nat.mul_le_mul_right _ (by omega)

/-- Interpolation rows of a band system whose elements on the diagonal sum `e` are the base ones. -/
theorem band_val {n nk1 : ℕ} (hn : 2 ≤ n) (dx : ℕ → K) (ab : ℕ → ℕ → K) (z : ℕ → V) {j : ℕ}
    (hj : j < nk1) (hab : ∀ r c, r + c = j * n + (n - 1) → ab r c = baseAB n nk1 dx r c) :
    (∑ r ∈ range (n + 1), if r ≤ j * n + (n - 1) ∧ j * n + (n - 1) - r < nk1 * n then
      ab r (j * n + (n - 1) - r) • z (j * n + (n - 1) - r) else 0) = ∑ q ∈ range n, z (j * n + q) := by
  refine row_val _ (fun q => z (j * n + q)) (fun r hr => ?_) ?_
  · have := block_lt (show n - 1 - r < n by omega) hj
    have e : j * n + (n - 1) - r = j * n + (n - 1 - r) := by omega
    rw [e, if_pos ⟨by omega, this⟩, hab _ _ (by omega)]
    rcases Nat.eq_zero_or_pos r with h | h
    · subst h
      rw [baseAB_top (j := j) (m := 0) dx (by omega) hj (by simp), if_pos rfl, one_smul]
    · rw [baseAB_mid dx h hr.le (by omega) (by omega), show n - 1 - r + 1 = n - r by omega]
      simp
  · split_ifs with h
    · rw [hab _ _ (by omega), baseAB_sub dx (by omega), zero_smul]
      obtain ⟨i, rfl⟩ : ∃ i, j = i + 1 := ⟨j - 1, by
        rcases Nat.eq_zero_or_pos j with h' | h'
        · subst h'; omega
        · omega⟩
      have e : (i + 1) * n + (n - 1) - n = i * n + (n - 1) := by
        rw [show (i + 1) * n = i * n + n by ring]; omega
      rw [e]; exact (flat_div (by omega)).2
    · rfl

/-- Continuity rows of a band system. -/
theorem band_cont {n nk1 : ℕ} (dx : ℕ → K) (ab : ℕ → ℕ → K) (z : ℕ → V) {j m : ℕ}
    (hj : j + 1 < nk1) (hm : 1 ≤ m) (hmn : m < n)
    (hab : ∀ r c, r + c = j * n + m + (n - 1) → ab r c = baseAB n nk1 dx r c) :
    (∑ r ∈ range (n + 1), if r ≤ j * n + m + (n - 1) ∧ j * n + m + (n - 1) - r < nk1 * n then
      ab r (j * n + m + (n - 1) - r) • z (j * n + m + (n - 1) - r) else 0) =
    ∑ q ∈ range n, ((q + 1).choose m : K) • z (j * n + q) -
      (dx j / dx (j + 1)) ^ m • z ((j + 1) * n + (m - 1)) := by
  refine row_cont hm hmn _ _ (fun q => z (j * n + q)) ?_ (fun r h1 h2 => ?_) (fun r h1 h2 => ?_)
  · have e : j * n + m + (n - 1) - 0 = (j + 1) * n + (m - 1) := by
      rw [show (j + 1) * n = j * n + n by ring]; omega
    rw [e, if_pos ⟨by omega, block_lt (by omega) hj⟩, hab _ _ (by omega),
      baseAB_top (j := j) (m := m) dx hmn (by omega) (by congr 1; omega), if_neg (by omega),
      Nat.mod_eq_of_lt hj, neg_smul]
  · have e : j * n + m + (n - 1) - r = (j + 1) * n + (m - r - 1) := by
      rw [show (j + 1) * n = j * n + n by ring]; omega
    rw [e, if_pos ⟨by omega, block_lt (by omega) hj⟩, hab _ _ (by omega),
      baseAB_mid dx h1 (by omega) (by omega) (by omega), Nat.choose_eq_zero_of_lt (by omega)]
    simp
  · have e : j * n + m + (n - 1) - r = j * n + (m + n - r - 1) := by omega
    rw [e, if_pos ⟨by omega, block_lt (by omega) (by omega)⟩, hab _ _ (by omega),
      baseAB_mid dx (by omega) h2 (by omega) (by omega), show m + n - r - 1 + 1 = m + n - r by omega]
    congr 2
    rw [← Nat.choose_symm (show n - r ≤ m + n - r by omega), show m + n - r - (n - r) = m by omega]

/-- Interpolation rows of the cyclic system. -/
theorem cyc_val {n nk1 : ℕ} (hn : 2 ≤ n) (dx : ℕ → K) (z : ℕ → V) {j : ℕ} (hj : j < nk1) :
    (∑ r ∈ range (n + 1), baseAB n nk1 dx r ((j * n + (n - 1) + (nk1 * n - r)) % (nk1 * n)) •
      z ((j * n + (n - 1) + (nk1 * n - r)) % (nk1 * n))) = ∑ q ∈ range n, z (j * n + q) := by
  have hnn : n ≤ nk1 * n := Nat.le_mul_of_pos_left n (by omega)
  refine row_val _ (fun q => z (j * n + q)) (fun r hr => ?_) ?_
  · have := block_lt (show n - 1 - r < n by omega) hj
    have e : (j * n + (n - 1) + (nk1 * n - r)) % (nk1 * n) = j * n + (n - 1 - r) := by
      rw [show j * n + (n - 1) + (nk1 * n - r) = j * n + (n - 1 - r) + nk1 * n by omega,
        Nat.add_mod_right, Nat.mod_eq_of_lt this]
    rw [e]
    rcases Nat.eq_zero_or_pos r with h | h
    · subst h
      rw [baseAB_top (j := j) (m := 0) dx (by omega) hj (by simp), if_pos rfl, one_smul]
    · rw [baseAB_mid dx h hr.le (by omega) (by omega), show n - 1 - r + 1 = n - r by omega]
      simp
  · rw [baseAB_sub dx (by omega), zero_smul]
    rw [Nat.mod_mod_of_dvd _ (Dvd.intro_left nk1 rfl)]
    obtain ⟨i, rfl⟩ : ∃ i, nk1 = i + 1 := ⟨nk1 - 1, by omega⟩
    rw [show j * n + (n - 1) + ((i + 1) * n - n) = (j + i) * n + (n - 1) by
      rw [show (i + 1) * n = i * n + n by ring, show (j + i) * n = j * n + i * n by ring]; omega]
    exact (flat_div (by omega)).2

/-- Continuity rows of the cyclic system. -/
theorem cyc_cont {n nk1 : ℕ} (dx : ℕ → K) (z : ℕ → V) {j m : ℕ} (hj : j < nk1) (hm : 1 ≤ m) (hmn : m < n) :
    (∑ r ∈ range (n + 1), baseAB n nk1 dx r ((j * n + m + (n - 1) + (nk1 * n - r)) % (nk1 * n)) •
      z ((j * n + m + (n - 1) + (nk1 * n - r)) % (nk1 * n))) =
    ∑ q ∈ range n, ((q + 1).choose m : K) • z (j * n + q) -
      (dx j / dx ((j + 1) % nk1)) ^ m • z (((j + 1) % nk1) * n + (m - 1)) := by
  have hnn : n ≤ nk1 * n := Nat.le_mul_of_pos_left n (by omega)
  have key : ∀ r < m, (j * n + m + (n - 1) + (nk1 * n - r)) % (nk1 * n) =
      ((j + 1) % nk1) * n + (m - r - 1) := by
    intro r hr
    have h2 := block_lt (nk1 := nk1) (j := (j + 1) % nk1) (show m - r - 1 < n by omega) (Nat.mod_lt _ (by omega))
    rw [show j * n + m + (n - 1) + (nk1 * n - r) = (j + 1) * n + (m - r - 1) + nk1 * n by
      rw [show (j + 1) * n = j * n + n by ring]; omega, Nat.add_mod_right]
    conv_lhs => rw [← Nat.div_add_mod (j + 1) nk1]
    rw [show (nk1 * ((j + 1) / nk1) + (j + 1) % nk1) * n + (m - r - 1) =
      (j + 1) % nk1 * n + (m - r - 1) + (nk1 * n) * ((j + 1) / nk1) by ring, Nat.add_mul_mod_self_left,
      Nat.mod_eq_of_lt h2]
  refine row_cont hm hmn _ _ (fun q => z (j * n + q)) ?_ (fun r h1 h2 => ?_) (fun r h1 h2 => ?_)
  · have e := key 0 (by omega)
    rw [baseAB_top (j := j) (m := m) dx hmn hj (by simp), if_neg (by omega), e, neg_smul]; rfl
  · rw [key r h2, baseAB_mid dx h1 (by omega) (by omega) (by omega), Nat.choose_eq_zero_of_lt (by omega)]
    simp
  · have e : (j * n + m + (n - 1) + (nk1 * n - r)) % (nk1 * n) = j * n + (m + n - r - 1) := by
      rw [show j * n + m + (n - 1) + (nk1 * n - r) = j * n + (m + n - r - 1) + nk1 * n by omega,
        Nat.add_mod_right, Nat.mod_eq_of_lt (block_lt (by omega) hj)]
    rw [e, baseAB_mid dx (by omega) h2 (by omega) (by omega), show m + n - r - 1 + 1 = m + n - r by omega]
    congr 2
    rw [← Nat.choose_symm (show n - r ≤ m + n - r by omega), show m + n - r - (n - r) = m by omega]

/-! ### boundary conditions -/

@[simp] theorem nspec_nil : nspec ([] : List (Option V)) = 0 := rfl
@[simp] theorem nspec_none (l : List (Option V)) : nspec (none :: l) = nspec l := by simp [nspec]
@[simp] theorem nspec_some (v : V) (l : List (Option V)) : nspec (some v :: l) = nspec l + 1 := by
  simp [nspec]

theorem hiLoop_spec {n nun : ℕ} (dxl : K) (hn : n ≤ nun) (l : List (Option V)) :
    ∀ (i k : ℕ) (ab : ℕ → ℕ → K) (b : ℕ → V), i + l.length ≤ n - 1 →
    (∀ r c, r + c < nun + k → (hiLoop n nun dxl l i k (ab, b)).1 r c = ab r c) ∧
    (∀ t, t < nun - (n - 1) + k ∨ nun - (n - 1) + k + nspec l ≤ t →
      (hiLoop n nun dxl l i k (ab, b)).2 t = b t) ∧
    ∀ q v, l[q]? = some (some v) → ∃ k', k ≤ k' ∧ k' < k + nspec l ∧ k' ≤ k + q ∧
      (hiLoop n nun dxl l i k (ab, b)).2 (nun - (n - 1) + k') = dxl ^ (i + q + 1) • v ∧
      ∀ r, k' < r → r ≤ n → (hiLoop n nun dxl l i k (ab, b)).1 r (nun - n + k' + (n - r)) =
        ((k' + (n - r) + 1).choose (i + q + 1) : K) := by
  induction l with
  | nil => intro i k ab b _; exact ⟨fun _ _ _ => rfl, fun _ _ => rfl, fun q v h => by simp at h⟩
  | cons o l ih =>
    intro i k ab b hi
    rw [List.length_cons] at hi
    cases o with
    | none =>
      obtain ⟨h1, h2, h3⟩ := ih (i + 1) k ab b (by omega)
      refine ⟨h1, by rw [nspec_none]; exact h2, fun q v h => ?_⟩
      cases q with
      | zero => simp at h
      | succ q =>
        obtain ⟨k', a1, a2, a3, a4, a5⟩ := h3 q v (by simpa using h)
        refine ⟨k', a1, by simpa using a2, by omega, ?_, ?_⟩
        · rw [show i + (q + 1) + 1 = i + 1 + q + 1 by omega]; exact a4
        · rw [show i + (q + 1) + 1 = i + 1 + q + 1 by omega]; exact a5
    | some w =>
      set ab' : ℕ → ℕ → K := fun r c => if k < r ∧ r ≤ n ∧ c = nun - n + k + (n - r) then
          (bicoRow K n (i + 1)).getD (k + (n - r) + 1) 0 else ab r c with hab'
      set b' := Function.update b (nun - (n - 1) + k) (dxl ^ (i + 1) • w) with hb'
      have e : hiLoop n nun dxl (some w :: l) i k (ab, b) = hiLoop n nun dxl l (i + 1) (k + 1) (ab', b') := rfl
      obtain ⟨h1, h2, h3⟩ := ih (i + 1) (k + 1) ab' b' (by omega)
      rw [e]
      refine ⟨fun r c h => ?_, fun t h => ?_, fun q v h => ?_⟩
      · rw [h1 r c (by omega), hab']
        simp only
        rw [if_neg]
        rintro ⟨a1, a2, a3⟩; omega
      · simp only [nspec_some] at h
        rw [h2 t (by omega), hb', Function.update_of_ne (by omega)]
      · cases q with
        | zero =>
          simp at h; subst h
          refine ⟨k, le_rfl, by simp, by omega, ?_, fun r hr1 hr2 => ?_⟩
          · rw [h2 _ (by omega), hb', Function.update_self]
          · rw [h1 _ _ (by omega), hab']
            simp only
            rw [if_pos ⟨hr1, hr2, trivial⟩, (bicoRow_spec n (i + 1) (by omega)).2 (k + (n - r) + 1) (by omega), Nat.add_zero]
        | succ q =>
          obtain ⟨k', a1, a2, a3, a4, a5⟩ := h3 q v (by simpa using h)
          refine ⟨k', by omega, by simp; omega, by omega, ?_, ?_⟩
          · rw [show i + (q + 1) + 1 = i + 1 + q + 1 by omega]; exact a4
          · rw [show i + (q + 1) + 1 = i + 1 + q + 1 by omega]; exact a5

theorem loLoop_spec {n : ℕ} (dx0 : K) (l : List (Option V)) :
    ∀ (i k j : ℕ) (ab : ℕ → ℕ → K) (b : ℕ → V), i + l.length = n - 1 → nspec l ≤ k + 1 → nspec l ≤ j →
      n - 1 - i ≤ j →
    (∀ r c, j ≤ r + c → (loLoop n dx0 l i k j (ab, b)).1 r c = ab r c) ∧
    (∀ t, k < t → (loLoop n dx0 l i k j (ab, b)).2 t = b t) ∧
    ∀ q v, l[q]? = some (some v) → ∃ d, d < nspec l ∧ d ≤ q ∧
      (loLoop n dx0 l i k j (ab, b)).2 (k - d) = dx0 ^ (n - 1 - 1 - (i + q) + 1) • v ∧
      ∀ r c, r + c = j - 1 - d → (loLoop n dx0 l i k j (ab, b)).1 r c =
        if c = n - 1 - 1 - (i + q) then 1 else ab r c := by
  induction l with
  | nil => intro i k j ab b _ _ _ _; exact ⟨fun _ _ _ => rfl, fun _ _ => rfl, fun q v h => by simp at h⟩
  | cons o l ih =>
    intro i k j ab b hi hk hj hij
    rw [List.length_cons] at hi
    cases o with
    | none =>
      simp only [nspec_none] at hk hj
      obtain ⟨h1, h2, h3⟩ := ih (i + 1) k j ab b (by omega) hk hj (by omega)
      refine ⟨h1, h2, fun q v h => ?_⟩
      cases q with
      | zero => simp at h
      | succ q =>
        obtain ⟨d, a1, a2, a3, a4⟩ := h3 q v (by simpa using h)
        refine ⟨d, by simpa using a1, by omega, ?_, ?_⟩
        · rw [show i + (q + 1) = i + 1 + q by omega]; exact a3
        · rw [show i + (q + 1) = i + 1 + q by omega]; exact a4
    | some w =>
      simp only [nspec_some] at hk hj
      set ab' : ℕ → ℕ → K := fun r c => if r = j - 1 - (n - 1 - 1 - i) ∧ c = n - 1 - 1 - i then 1 else ab r c
        with hab'
      set b' := Function.update b k (dx0 ^ (n - 1 - 1 - i + 1) • w) with hb'
      have e : loLoop n dx0 (some w :: l) i k j (ab, b) = loLoop n dx0 l (i + 1) (k - 1) (j - 1) (ab', b') := rfl
      rw [e]
      by_cases hl0 : nspec l = 0
      · -- no further condition
        have hnone : ∀ (m : List (Option V)) (i k j : ℕ) (s : (ℕ → ℕ → K) × (ℕ → V)), nspec m = 0 →
            loLoop n dx0 m i k j s = s := by
          intro m
          induction m with
          | nil => intros; rfl
          | cons o m ihm =>
            intro i k j s h
            cases o with
            | none => exact ihm _ _ _ _ (by simpa using h)
            | some v => simp at h
        rw [hnone l _ _ _ _ hl0]
        refine ⟨fun r c h => ?_, fun t h => ?_, fun q v h => ?_⟩
        · simp only [hab']; rw [if_neg]; rintro ⟨a1, a2⟩; omega
        · simp only [hb']; rw [Function.update_of_ne (by omega)]
        · cases q with
          | zero =>
            simp at h; subst h
            refine ⟨0, by simp, le_rfl, ?_, fun r c hrc => ?_⟩
            · simp [hb']
            · simp only [hab', Nat.add_zero]
              by_cases hc : c = n - 1 - 1 - i
              · rw [if_pos hc, if_pos ⟨by omega, hc⟩]
              · rw [if_neg hc, if_neg (by tauto)]
          | succ q =>
            exfalso
            have : 0 < nspec l := by
              rw [nspec, List.countP_pos_iff]
              exact ⟨some v, List.mem_of_getElem? (by simpa using h), rfl⟩
            omega
      · obtain ⟨h1, h2, h3⟩ := ih (i + 1) (k - 1) (j - 1) ab' b' (by omega) (by omega) (by omega) (by omega)
        refine ⟨fun r c h => ?_, fun t h => ?_, fun q v h => ?_⟩
        · rw [h1 r c (by omega)]
          simp only [hab']; rw [if_neg]; rintro ⟨a1, a2⟩; omega
        · rw [h2 t (by omega), hb', Function.update_of_ne (by omega)]
        · cases q with
          | zero =>
            simp at h; subst h
            refine ⟨0, by simp, le_rfl, ?_, fun r c hrc => ?_⟩
            · rw [h2 _ (by omega)]; simp [hb']
            · rw [h1 r c (by omega)]
              simp only [hab', Nat.add_zero]
              by_cases hc : c = n - 1 - 1 - i
              · rw [if_pos hc, if_pos ⟨by omega, hc⟩]
              · rw [if_neg hc, if_neg (by tauto)]
          | succ q =>
            obtain ⟨d, a1, a2, a3, a4⟩ := h3 q v (by simpa using h)
            refine ⟨d + 1, by simp; omega, by omega, ?_, fun r c hrc => ?_⟩
            · rw [show i + (q + 1) = i + 1 + q by omega, show k - (d + 1) = k - 1 - d by omega]; exact a3
            · rw [show i + (q + 1) = i + 1 + q by omega, a4 r c (by omega)]
              split_ifs with hc
              · rfl
              · simp only [hab']; rw [if_neg]; rintro ⟨b1, b2⟩; omega

/-- What a solution of the nonperiodic system satisfies. -/
structure Sys (n : ℕ) (x : List K) (y : List V) (z : ℕ → V) : Prop where
  val : ∀ j < x.length - 1, ∑ q ∈ range n, z (j * n + q) = y.getD (j + 1) 0 - y.getD j 0
  cont : ∀ j, j + 1 < x.length - 1 → ∀ m, 1 ≤ m → m < n →
    ∑ q ∈ range n, ((q + 1).choose m : K) • z (j * n + q) =
      (width x j / width x (j + 1)) ^ m • z ((j + 1) * n + (m - 1))

theorem nspec_reverse (l : List (Option V)) : nspec l.reverse = nspec l := by
  simp [nspec]

theorem system_spec {n nlo : ℕ} (hn : 2 ≤ n) {x : List K} {y : List V} (hx : 2 ≤ x.length)
    {lo hi : List (Option V)} (hlo : lo.length = n - 1) (hhi : hi.length ≤ n - 1)
    (hnlo : nspec lo = nlo) (htot : nlo + nspec hi = n - 1) {z : ℕ → V}
    (hz : Solves ((x.length - 1) * n) (bandMat (1 + nlo) (n - 1 - nlo) (system n x y lo hi nlo).1) z
      (system n x y lo hi nlo).2) :
    Sys n x y z ∧
    (∀ q v, lo[q]? = some (some v) → z q = width x 0 ^ (q + 1) • v) ∧
    (∀ q v, hi[q]? = some (some v) →
      ∑ q' ∈ range n, ((q' + 1).choose (q + 1) : K) • z ((x.length - 1 - 1) * n + q') =
        width x (x.length - 1 - 1) ^ (q + 1) • v) := by
  set nk1 := x.length - 1 with hnk1
  have hk1 : 1 ≤ nk1 := by omega
  clear_value nk1
  set ab0 : ℕ → ℕ → K := fun r c => if r = 0 ∧ c < n - 1 then 0 else baseAB n nk1 (width x) r c with hab0
  obtain ⟨H1, H2, H3⟩ := hiLoop_spec (n := n) (nun := nk1 * n) (width x (nk1 - 1))
    (Nat.le_mul_of_pos_left n (by omega)) hi 0 0 ab0 (baseB n y) (by omega)
  set hs := hiLoop n (nk1 * n) (width x (nk1 - 1)) hi 0 0 (ab0, baseB n y) with hhs
  set b1 : ℕ → V := if nlo ≠ 0 then fun i => hs.2 (rollIdx (nk1 * n) (nlo : ℤ) i) else hs.2 with hb1
  have hsys : system n x y lo hi nlo = loLoop n (width x 0) lo.reverse 0 (nlo - 1) (n - 1) (hs.1, b1) := by
    unfold system
    rw [← hnk1]
  obtain ⟨L1, L2, L3⟩ := loLoop_spec (n := n) (width x 0) lo.reverse 0 (nlo - 1) (n - 1) hs.1 b1
    (by simpa using hlo) (by rw [nspec_reverse]; omega) (by rw [nspec_reverse]; omega) (by omega)
  rw [← hsys] at L1 L2 L3
  set s := system n x y lo hi nlo with hs'
  have hnn : n ≤ nk1 * n := Nat.le_mul_of_pos_left n (by omega)
  have hrow : ∀ e, n - 1 - nlo ≤ e → e < nk1 * n + (n - 1 - nlo) →
      (∑ r ∈ range (n + 1), if r ≤ e ∧ e - r < nk1 * n then s.1 r (e - r) • z (e - r) else 0) =
        s.2 (e - (n - 1 - nlo)) := by
    intro e he1 he2
    rw [← hz (e - (n - 1 - nlo)) (by omega), band_row, show 1 + nlo + (n - 1 - nlo) + 1 = n + 1 by omega,
      show n - 1 - nlo + (e - (n - 1 - nlo)) = e by omega]
  have hb : ∀ t, t + nlo < nk1 * n → s.2 (t + nlo) = hs.2 t := by
    intro t ht
    by_cases h0 : nlo = 0
    · have : s.2 (t + nlo) = b1 (t + nlo) := by
        by_cases ht0 : t = 0
        · subst ht0
          have hnil : ∀ (m : List (Option V)) (i k j : ℕ) (s : (ℕ → ℕ → K) × (ℕ → V)), nspec m = 0 →
              loLoop n (width x 0) m i k j s = s := by
            intro m
            induction m with
            | nil => intros; rfl
            | cons o m ihm =>
              intro i k j s h
              cases o with
              | none => exact ihm _ _ _ _ (by simpa using h)
              | some v => simp at h
          rw [hsys, hnil _ _ _ _ _ (by rw [nspec_reverse]; omega)]
        · exact L2 _ (by omega)
      rw [this, hb1, if_neg (by simpa using h0), h0]; rfl
    · rw [L2 _ (by omega), hb1, if_pos h0]
      rw [rollIdx_pos ht (by omega), Nat.add_sub_cancel]
  have hab : ∀ r c, n - 1 ≤ r + c → r + c < nk1 * n → s.1 r c = baseAB n nk1 (width x) r c := by
    intro r c h1 h2
    rw [L1 r c h1, H1 r c h2]
    simp only [hab0]
    rw [if_neg (by omega)]
  obtain ⟨i, hi1⟩ : ∃ i, nk1 = i + 1 := ⟨nk1 - 1, by omega⟩
  have hmul : nk1 * n = i * n + n := by rw [hi1]; ring
  refine ⟨⟨fun j hj => ?_, fun j hj m hm hmn => ?_⟩, fun q v hq => ?_, fun q v hq => ?_⟩
  · rw [← hnk1] at hj
    have hjn : j * n + n ≤ nk1 * n := by
      rw [show j * n + n = (j + 1) * n by ring]; exact Nat.mul_le_mul_right _ (by omega)
    rw [← band_val hn (width x) s.1 z hj (fun r c h => hab r c (by omega) (by omega)),
      hrow _ (by omega) (by omega), show j * n + (n - 1) - (n - 1 - nlo) = j * n + nlo by omega,
      hb _ (by omega), H2 _ (by omega)]
    unfold baseB
    rw [Nat.mul_mod_left, if_pos rfl, Nat.mul_div_cancel _ (by omega)]
  · rw [← hnk1] at hj
    have hjn : j * n + n + n ≤ nk1 * n := by
      rw [show j * n + n + n = (j + 1 + 1) * n by ring]; exact Nat.mul_le_mul_right _ (by omega)
    have h := band_cont (width x) s.1 z hj hm hmn (fun r c h => hab r c (by omega) (by omega))
    rw [hrow _ (by omega) (by omega), show j * n + m + (n - 1) - (n - 1 - nlo) = j * n + m + nlo by omega,
      hb _ (by omega), H2 _ (by omega)] at h
    unfold baseB at h
    rw [(flat_div (r := j) hmn).2, if_neg (by omega)] at h
    exact (sub_eq_zero.mp h.symm)
  · have hqn : q < lo.length := by
      by_contra hc
      rw [List.getElem?_eq_none (by omega)] at hq; cases hq
    have hrev : lo.reverse[n - 1 - 1 - q]? = some (some v) := by
      rw [List.getElem?_reverse (by omega), hlo, show n - 1 - 1 - (n - 1 - 1 - q) = q by omega]; exact hq
    obtain ⟨d, d1, d2, d3, d4⟩ := L3 _ v hrev
    rw [nspec_reverse] at d1
    rw [show n - 1 - 1 - (0 + (n - 1 - 1 - q)) = q by omega] at d3 d4
    have h := hrow (n - 1 - 1 - d) (by omega) (by omega)
    rw [show n - 1 - 1 - d - (n - 1 - nlo) = nlo - 1 - d by omega, d3] at h
    rw [← h]
    symm
    rw [sum_eq_single (n - 1 - 1 - d - q)]
    · rw [if_pos ⟨by omega, by omega⟩, show n - 1 - 1 - d - (n - 1 - 1 - d - q) = q by omega,
        d4 _ _ (by omega), if_pos rfl, one_smul]
    · intro r _ hr
      split_ifs with hc
      · rw [d4 _ _ (by omega), if_neg (by omega), H1 _ _ (by omega)]
        simp only [hab0]
        rcases Nat.eq_zero_or_pos r with h0 | h0
        · rw [if_pos ⟨h0, by omega⟩, zero_smul]
        · rw [if_neg (by omega)]
          have := baseAB_mid (n := n) (nk1 := nk1) (width x) (r := r) (j := 0) (q := n - 1 - 1 - d - r) h0
            (by omega) (by omega) (by omega)
          rw [Nat.zero_mul, Nat.zero_add] at this
          rw [this, Nat.choose_eq_zero_of_lt (by omega)]; simp
      · rfl
    · intro h; simp at h; omega
  · obtain ⟨k, k1, k2, k3, k4, k5⟩ := H3 q v hq
    have hqn : q < hi.length := by
      by_contra hc
      rw [List.getElem?_eq_none (by omega)] at hq; cases hq
    have h := hrow (nk1 * n + k) (by omega) (by omega)
    rw [show nk1 * n + k - (n - 1 - nlo) = nk1 * n - (n - 1) + k + nlo by omega, hb _ (by omega), k4,
      Nat.zero_add] at h
    rw [← h]
    symm
    rw [← sum_tail (n := n) (m := k + 1) (by omega) (by omega) (fun q' => ((q' + 1).choose (q + 1) : K))
      (fun q' hq' => by rw [Nat.choose_eq_zero_of_lt (by omega)]; simp) (fun q' => z ((nk1 - 1) * n + q'))]
    refine sum_congr rfl fun r hr => ?_
    rw [mem_range] at hr
    by_cases hrk : k + 1 ≤ r
    · rw [if_pos ⟨by omega, by omega⟩, if_pos hrk]
      have e : nk1 * n + k - r = nk1 * n - n + k + (n - r) := by omega
      have e2 : nk1 * n + k - r = (nk1 - 1) * n + (k + 1 + n - r - 1) := by
        rw [hi1, show (i + 1) * n = i * n + n by ring, Nat.add_sub_cancel]; omega
      rw [L1 _ _ (by omega), ← e2]
      congr 1
      rw [e, k5 r (by omega) (by omega)]
      congr 2 <;> omega
    · rw [if_neg (by omega), if_neg hrk]

/-! ### completing the boundary conditions -/

/-- Number of unspecified items among the first `i`. -/
def nn (l : List (Option V)) (i : ℕ) : ℕ := ∑ q ∈ range i, if (l.getD q none).isNone then 1 else 0

theorem nspec_add_nn (l : List (Option V)) : nspec l + nn l l.length = l.length := by
  induction l with
  | nil => simp [nn]
  | cons o l ih =>
    unfold nn at *
    rw [List.length_cons, sum_range_succ']
    cases o <;> simp at * <;> omega

theorem nspec_set (l : List (Option V)) (i : ℕ) (hi : i < l.length) (h : l.getD i none = none) (v : V) :
    nspec (l.set i (some v)) = nspec l + 1 := by
  induction l generalizing i with
  | nil => simp at hi
  | cons o l ih =>
    cases i with
    | zero => simp at h; subst h; simp
    | succ i =>
      have := ih i (by simpa using hi) (by simpa using h)
      cases o <;> simp [this]

theorem getD_set (l : List (Option V)) (i q : ℕ) (o : Option V) (hi : i < l.length) :
    (l.set i o).getD q none = if q = i then o else l.getD q none := by
  by_cases h : q = i
  · subst h; rw [if_pos rfl, List.getD_eq_getElem?_getD, List.getElem?_set_self hi]; rfl
  · rw [if_neg h, List.getD_eq_getElem?_getD, List.getElem?_set_ne (Ne.symm h), List.getD_eq_getElem?_getD]

theorem nn_set (l : List (Option V)) (i : ℕ) (o : Option V) (hi : i < l.length) :
    nn (l.set i o) i = nn l i := by
  unfold nn
  refine sum_congr rfl fun q hq => ?_
  rw [mem_range] at hq
  rw [getD_set _ _ _ _ hi, if_neg (show ¬ q = i by omega)]

theorem fillLoop_zero (i1 : ℕ) (lo hi : List (Option V)) (nlo : ℕ) :
    fillLoop i1 0 lo hi nlo = .ok (lo, hi, nlo) := by
  cases i1 <;> simp [fillLoop]

theorem fillLoop_succ (i : ℕ) {missing : ℤ} (hm : missing ≠ 0) (lo hi : List (Option V)) (nlo : ℕ) :
    fillLoop (i + 1) missing lo hi nlo =
      let s := if (lo.getD i none).isNone then
          (lo.set i (some 0), missing - 1, nlo + 1) else (lo, missing, nlo)
      let t := if s.2.1 ≠ 0 ∧ (hi.getD i none).isNone then
          (hi.set i (some 0), s.2.1 - 1) else (hi, s.2.1)
      fillLoop i t.2 s.1 t.1 s.2.2 := by
  conv_lhs => unfold fillLoop
  rw [if_neg hm]

/-- The relation between given and completed boundary conditions, slots below `i1` being open. -/
structure Filled (i1 : ℕ) (lo hi lo' hi' : List (Option V)) : Prop where
  len_lo : lo'.length = lo.length
  len_hi : hi'.length = hi.length
  keep_lo : ∀ q v, lo.getD q none = some v → lo'.getD q none = some v
  keep_hi : ∀ q v, hi.getD q none = some v → hi'.getD q none = some v
  new_lo : ∀ q v, lo.getD q none = none → lo'.getD q none = some v → v = 0 ∧ q < i1 ∧
    ∀ q', q < q' → q' < i1 → (lo'.getD q' none).isSome ∧ (hi'.getD q' none).isSome
  new_hi : ∀ q v, hi.getD q none = none → hi'.getD q none = some v → v = 0 ∧ q < i1 ∧
    (lo'.getD q none).isSome ∧
    ∀ q', q < q' → q' < i1 → (lo'.getD q' none).isSome ∧ (hi'.getD q' none).isSome

theorem fillLoop_ok (i1 : ℕ) : ∀ (missing : ℤ) (lo hi : List (Option V)) (nlo : ℕ),
    i1 ≤ lo.length → i1 ≤ hi.length → 0 ≤ missing → missing ≤ (nn lo i1 + nn hi i1 : ℕ) → nlo = nspec lo →
    ∃ lo' hi' nlo', fillLoop i1 missing lo hi nlo = .ok (lo', hi', nlo') ∧ nlo' = nspec lo' ∧
      ((nspec lo' + nspec hi' : ℕ) : ℤ) = (nspec lo + nspec hi : ℕ) + missing ∧ Filled i1 lo hi lo' hi' := by
  have refl : ∀ i1 (lo hi : List (Option V)), Filled i1 lo hi lo hi := fun i1 lo hi =>
    ⟨rfl, rfl, fun _ _ h => h, fun _ _ h => h, fun q v h h' => (by rw [h] at h'; cases h'),
      fun q v h h' => (by rw [h] at h'; cases h')⟩
  induction i1 with
  | zero =>
    intro missing lo hi nlo _ _ h0 h1 hn
    have : missing = 0 := by simp [nn] at h1; omega
    subst this
    exact ⟨lo, hi, nlo, fillLoop_zero _ _ _ _, hn, by simp, refl _ _ _⟩
  | succ i ih =>
    intro missing lo hi nlo hl hh h0 h1 hn
    by_cases hm : missing = 0
    · subst hm
      exact ⟨lo, hi, nlo, fillLoop_zero _ _ _ _, hn, by simp, refl _ _ _⟩
    rw [fillLoop_succ i hm]
    -- the two assignments
    obtain ⟨lo1, m1, nlo1, e1, s1, s2, s3, s4, s5, s6, s7⟩ : ∃ lo1 m1 nlo1,
        (if (lo.getD i none).isNone then (lo.set i (some 0), missing - 1, nlo + 1) else (lo, missing, nlo)) =
          (lo1, m1, nlo1) ∧ lo1.length = lo.length ∧ nlo1 = nspec lo1 ∧ (nspec lo1 : ℤ) + m1 = nspec lo + missing ∧
          nn lo1 i = nn lo i ∧ 0 ≤ m1 ∧
          (∀ q, lo1.getD q none = if q = i ∧ lo.getD i none = none then some 0 else lo.getD q none) ∧
          m1 ≤ (nn lo i + nn hi (i + 1) : ℕ) := by
      cases hc : lo.getD i none with
      | none =>
        refine ⟨_, _, _, if_pos rfl, by simp, ?_, ?_, nn_set _ _ _ (by omega), by omega, fun q => ?_, ?_⟩
        · rw [nspec_set _ _ (by omega) hc, hn]
        · rw [nspec_set _ _ (by omega) hc]; push_cast; ring
        · rw [getD_set _ _ _ _ (by omega)]
          by_cases hq : q = i <;> simp [hq]
        · have : nn lo (i + 1) = nn lo i + 1 := by unfold nn; rw [sum_range_succ, hc]; simp
          push_cast at *; omega
      | some w =>
        refine ⟨_, _, _, if_neg (by simp), rfl, hn, rfl, rfl, h0, fun q => ?_, ?_⟩
        · simp
        · have : nn lo (i + 1) = nn lo i := by unfold nn; rw [sum_range_succ, hc]; simp
          push_cast at *; omega
    rw [e1]
    simp only
    obtain ⟨hi1, m2, e2, t1, t3, t4, t5, t6, t7⟩ : ∃ hi1 m2,
        (if m1 ≠ 0 ∧ (hi.getD i none).isNone then (hi.set i (some 0), m1 - 1) else (hi, m1)) = (hi1, m2) ∧
          hi1.length = hi.length ∧ (nspec hi1 : ℤ) + m2 = nspec hi + m1 ∧ nn hi1 i = nn hi i ∧ 0 ≤ m2 ∧
          (∀ q, hi1.getD q none = if q = i ∧ hi.getD i none = none ∧ m1 ≠ 0 then some 0 else hi.getD q none) ∧
          m2 ≤ (nn lo i + nn hi i : ℕ) := by
      by_cases hc : m1 ≠ 0 ∧ hi.getD i none = none
      · have hc' : m1 ≠ 0 ∧ (hi.getD i none).isNone := ⟨hc.1, by rw [hc.2]; rfl⟩
        refine ⟨_, _, if_pos hc', by simp, ?_, nn_set _ _ _ (by omega), by omega, fun q => ?_, ?_⟩
        · rw [nspec_set _ _ (by omega) hc.2]; push_cast; ring
        · rw [getD_set _ _ _ _ (by omega)]
          by_cases hq : q = i
          · rw [if_pos hq, if_pos ⟨hq, hc.2, hc.1⟩]
          · rw [if_neg hq, if_neg (by tauto)]
        · have : nn hi (i + 1) = nn hi i + 1 := by unfold nn; rw [sum_range_succ, hc.2]; simp
          push_cast at *; omega
      · have hc' : ¬ (m1 ≠ 0 ∧ (hi.getD i none).isNone) := by rwa [Option.isNone_iff_eq_none]
        refine ⟨_, _, if_neg hc', rfl, rfl, rfl, s5, fun q => ?_, ?_⟩
        · rw [if_neg (by tauto)]
        · by_cases hm1 : m1 = 0
          · subst hm1; positivity
          · have hne : (hi.getD i none).isNone = false := by
              by_contra hb; exact hc' ⟨hm1, by simpa using hb⟩
            have : nn hi (i + 1) = nn hi i := by unfold nn; rw [sum_range_succ, hne]; simp
            push_cast at *; omega
    rw [e2]
    simp only
    obtain ⟨lo', hi', nlo', r1, r2, r3, F⟩ := ih m2 lo1 hi1 nlo1 (by omega) (by omega) t5
      (by rw [s4, t4]; exact t7) s2
    refine ⟨lo', hi', nlo', r1, r2, by push_cast at *; omega, ?_⟩
    -- when something is filled below `i`, both slots `i` are filled
    have hboth : ∀ q', q' = i → m2 ≠ 0 → (lo'.getD q' none).isSome ∧ (hi'.getD q' none).isSome := by
      rintro q' rfl hm2
      constructor
      · have := s6 q'
        cases hc : lo.getD q' none with
        | none => rw [if_pos ⟨rfl, hc⟩] at this; rw [F.keep_lo _ _ this]; rfl
        | some w => rw [if_neg (by rw [hc]; simp), hc] at this; rw [F.keep_lo _ _ this]; rfl
      · have := t6 q'
        cases hc : hi.getD q' none with
        | none =>
          have hm1 : m1 ≠ 0 := by
            rintro rfl
            rw [if_neg (by simp)] at e2; cases e2; exact hm2 rfl
          rw [if_pos ⟨rfl, hc, hm1⟩] at this; rw [F.keep_hi _ _ this]; rfl
        | some w => rw [if_neg (by rw [hc]; simp), hc] at this; rw [F.keep_hi _ _ this]; rfl
    have hm2 : ∀ (l l' : List (Option V)) q v, (l = lo1 ∧ l' = lo') ∨ (l = hi1 ∧ l' = hi') →
        l.getD q none = none → l'.getD q none = some v → m2 ≠ 0 := by
      rintro l l' q v h hq hq' rfl
      rw [fillLoop_zero] at r1
      cases r1
      rcases h with ⟨rfl, rfl⟩ | ⟨rfl, rfl⟩ <;> · rw [hq] at hq'; cases hq'
    refine ⟨by rw [F.len_lo, s1], by rw [F.len_hi, t1], fun q v h => ?_, fun q v h => ?_,
      fun q v h h' => ?_, fun q v h h' => ?_⟩
    · refine F.keep_lo q v ?_
      rw [s6, if_neg, h]
      rintro ⟨rfl, h2⟩; rw [h2] at h; cases h
    · refine F.keep_hi q v ?_
      rw [t6, if_neg, h]
      rintro ⟨rfl, h2, _⟩; rw [h2] at h; cases h
    · by_cases hq : q = i
      · subst hq
        have := s6 q
        rw [if_pos ⟨rfl, h⟩] at this
        rw [F.keep_lo _ _ this] at h'
        cases h'
        exact ⟨rfl, by omega, fun q' h1 h2 => by omega⟩
      · have hq1 : lo1.getD q none = none := by rw [s6, if_neg (by tauto), h]
        obtain ⟨a, b, c⟩ := F.new_lo q v hq1 h'
        refine ⟨a, by omega, fun q' h1 h2 => ?_⟩
        by_cases hqi : q' = i
        · exact hboth q' hqi (hm2 lo1 lo' q v (Or.inl ⟨rfl, rfl⟩) hq1 h')
        · exact c q' h1 (by omega)
    · by_cases hq : q = i ∧ m1 ≠ 0
      · obtain ⟨rfl, hm1⟩ := hq
        have := t6 q
        rw [if_pos ⟨rfl, h, hm1⟩] at this
        rw [F.keep_hi _ _ this] at h'
        cases h'
        refine ⟨rfl, by omega, ?_, fun q' h1 h2 => by omega⟩
        have := s6 q
        cases hc : lo.getD q none with
        | none => rw [if_pos ⟨rfl, hc⟩] at this; rw [F.keep_lo _ _ this]; rfl
        | some w => rw [if_neg (by rw [hc]; simp), hc] at this; rw [F.keep_lo _ _ this]; rfl
      · have hq1 : hi1.getD q none = none := by rw [t6, if_neg (by tauto), h]
        obtain ⟨a, b, d, c⟩ := F.new_hi q v hq1 h'
        refine ⟨a, by omega, d, fun q' h1 h2 => ?_⟩
        by_cases hqi : q' = i
        · exact hboth q' hqi (hm2 hi1 hi' q v (Or.inr ⟨rfl, rfl⟩) hq1 h')
        · exact c q' h1 (by omega)

theorem fillLoop_neg (i1 : ℕ) : ∀ (missing : ℤ) (lo hi : List (Option V)) (nlo : ℕ), missing < 0 →
    fillLoop i1 missing lo hi nlo = .error .indexError := by
  induction i1 with
  | zero => intro m lo hi nlo h; unfold fillLoop; rw [if_neg (by omega)]
  | succ i ih =>
    intro m lo hi nlo h
    rw [fillLoop_succ i (by omega)]
    simp only
    apply ih
    split_ifs <;> simp_all <;> omega

end Spl
end Npplus
